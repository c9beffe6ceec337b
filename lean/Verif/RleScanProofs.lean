import Verif.RleProofs

/-! # The run-length scan refines the specification cursor -/

set_option linter.unusedSimpArgs false
set_option linter.unusedSectionVars false

namespace Verif

variable {α Step : Type} [LinearOrder α] [DecidableEq Step] {r : RleOps α Step}
  {safe : α → α → Prop}

theorem slice_dropWhile_skip {l : List α} {p q b : Nat} {v : α} (hb : b ≤ l.length) (hpq : p ≤ q)
    (hlt : ∀ i (h : i < l.length), p ≤ i → i < q → i < b → l[i] < v) :
    (slice l p b).dropWhile (· < v) = (slice l q b).dropWhile (· < v) := by
  induction hk : q - p generalizing p with
  | zero =>
    have : p = q := by omega
    subst this; rfl
  | succ k ih =>
    by_cases h : p < b
    · rw [slice_cons h hb, List.dropWhile_cons, if_pos]
      · exact ih (p := p + 1) (by omega) (fun i h h1 h2 => hlt i h (by omega) h2) (by omega)
      · simpa using hlt p (by omega) (le_refl p) (by omega) h
    · rw [slice_nil (by omega), slice_nil (by omega)]

namespace RleScan

/-- the parts of the state that never change while scanning -/
structure Fixed (r : RleOps α Step) (c : RleCol α Step) (data : List α) (n : Nat) (E : Nat → Nat)
    (a b : Nat) (s : RleScan α Step) : Prop where
  repr : Repr r c data n E
  col : s.column = c
  lnorm : Repr.Norm n E s.lower.1 s.lower.2
  lpos : E s.lower.1 + s.lower.2 = a
  unorm : Repr.Norm n E s.upper.1 s.upper.2
  upos : E s.upper.1 + s.upper.2 = b

/-- an initialised scan standing at global position `p` -/
structure At (data : List α) (n : Nat) (E : Nat → Nat) (a b : Nat) (s : RleScan α Step) (p : Nat) :
    Prop where
  init : s.init = true
  norm : Repr.Norm n E s.el s.inc
  pos : E s.el + s.inc = p
  le : a ≤ p

/-- Simulation relation between an RLE scan narrowed to `a..b` and the specification cursor. -/
def Sim (r : RleOps α Step) (c : RleCol α Step) (data : List α) (n : Nat) (E : Nat → Nat) (a b : Nat)
    (s : RleScan α Step) (cur : Cur α) : Prop :=
  Fixed r c data n E a b s ∧
  ((s.init = false ∧ s.current = none ∧
      (cur = .fresh (slice data a b) ∨ (data = [] ∧ cur = .at []))) ∨
   ∃ p, At data n E a b s p ∧ cur = .at (slice data p b) ∧
      s.current = if p < b then data[p]? else none)

variable {c : RleCol α Step} {data : List α} {n : Nat} {E : Nat → Nat} {a b : Nat}
  {s : RleScan α Step}

theorem Fixed.b_le (h : Fixed r c data n E a b s) : b ≤ data.length := by
  have := h.unorm.le_len h.repr
  rw [h.upos] at this; exact this

theorem Fixed.inRange (h : Fixed r c data n E a b s) {e k : Nat} (hn : Repr.Norm n E e k) :
    s.inRange e k = true ↔ a ≤ E e + k ∧ E e + k < b := by
  have h1 := h.repr.lex_lt hn h.lnorm
  have h2 := h.repr.lex_lt hn h.unorm
  rw [h.lpos] at h1
  rw [h.upos] at h2
  unfold RleScan.inRange
  simp only [Bool.and_eq_true, Bool.or_eq_true, decide_eq_true_eq, beq_iff_eq]
  rw [h2]
  have : (s.lower.1 < e ∨ e = s.lower.1 ∧ s.lower.2 ≤ k) ↔ ¬ (e < s.lower.1 ∨ e = s.lower.1 ∧ k < s.lower.2) := by
    omega
  rw [this, h1]
  omega

theorem Fixed.init_at (h : Fixed r c data n E a b s) (hi : s.init = false) :
    Fixed r c data n E a b s.initIndices ∧ At data n E a b s.initIndices a := by
  have hs : s.initIndices = { s with el := s.lower.1, inc := s.lower.2, init := true } := by
    simp [initIndices, hi]
  rw [hs]
  exact ⟨⟨h.repr, h.col, h.lnorm, h.lpos, h.unorm, h.upos⟩, ⟨rfl, h.lnorm, h.lpos, le_refl _⟩⟩

theorem At.selfInRange (hf : Fixed r c data n E a b s) {p : Nat} (h : At data n E a b s p) :
    s.selfInRange = true ↔ p < b := by
  unfold RleScan.selfInRange
  rw [h.init, Bool.true_and, hf.inRange h.norm, h.pos]
  have := h.le
  omega

/-- the value returned at a position -/
theorem At.value (hf : Fixed r c data n E a b s) (L : RleLaws r safe) (hlen : data.length < 2 ^ 63)
    {p : Nat} (h : At data n E a b s p) (hp : p < b) :
    s.column.getInternal r s.el s.inc = data[p]? := by
  have hb := hf.b_le
  obtain ⟨h1, h2⟩ := h.norm.lt_len hf.repr (by rw [h.pos]; omega)
  rw [hf.col, hf.repr.getInternal L hlen h1 h2, h.pos]

theorem sim_current (cur : Cur α) (h : Sim r c data n E a b s cur) :
    (ops r).current s = cur.current := by
  obtain ⟨hf, ⟨_, h2, rfl | ⟨_, rfl⟩⟩ | ⟨p, _, rfl, h3⟩⟩ := h
  · simp [ops, h2, Cur.current]
  · simp [ops, h2, Cur.current]
  · simp [ops, h3, Cur.current, slice_head hf.b_le]

/-- after moving to position `p`, `next` computes the right value -/
theorem next_sim (L : RleLaws r safe) (hlen : data.length < 2 ^ 63) (cur : Cur α)
    (h : Sim r c data n E a b s cur) :
    ∃ s', (ops r).next s = some (cur.next.current, s') ∧ Sim r c data n E a b s' cur.next := by
  obtain ⟨hf, h⟩ := h
  have hb := hf.b_le
  have fin : ∀ (s1 : RleScan α Step) (p : Nat), s.advance = some s1 → Fixed r c data n E a b s1 →
      At data n E a b s1 p → cur.next = .at (slice data p b) →
      (p < b → s1.nextValue r = data[p]?) →
      ∃ s', (ops r).next s = some (cur.next.current, s') ∧ Sim r c data n E a b s' cur.next := by
    intro s1 p h1 hf1 hat hc hval
    have hin := At.selfInRange hf1 hat
    simp only [ops, next, h1, Option.bind_eq_bind, Option.bind_some]
    by_cases hp : p < b
    · have hx : data[p]? = some (data[p]'(by omega)) := List.getElem?_eq_getElem (by omega)
      have hval := hval hp
      rw [hx] at hval
      rw [if_pos (hin.mpr hp)]
      refine ⟨{ s1 with current := some (data[p]'(by omega)) }, ?_,
        ⟨hf1.repr, hf1.col, hf1.lnorm, hf1.lpos, hf1.unorm, hf1.upos⟩,
        .inr ⟨p, ⟨hat.init, hat.norm, hat.pos, hat.le⟩, hc, ?_⟩⟩
      · rw [hc, Cur.current, slice_head hb, if_pos hp, hx, hval]; rfl
      · simp [hp]
    · rw [if_neg (by simp [hin, hp])]
      refine ⟨{ s1 with current := none }, ?_,
        ⟨hf1.repr, hf1.col, hf1.lnorm, hf1.lpos, hf1.unorm, hf1.upos⟩,
        .inr ⟨p, ⟨hat.init, hat.norm, hat.pos, hat.le⟩, hc, ?_⟩⟩
      · rw [hc, Cur.current, slice_head hb, if_neg hp]; rfl
      · simp [hp]
  rcases h with ⟨hi, hcur, hc⟩ | ⟨p, hat, hc, hcur⟩
  · obtain ⟨hf1, hat1⟩ := hf.init_at hi
    refine fin s.initIndices a (by simp [advance, hi]) hf1 hat1 ?_ fun hab => ?_
    · rcases hc with rfl | ⟨h0, rfl⟩
      · rfl
      · simp [Cur.next, slice, h0]
    · have hcn : s.initIndices.current = none := by simp [initIndices, hi, hcur]
      have hv := hat1.value hf1 L hlen hab
      unfold nextValue
      split
      · next hz =>
        obtain ⟨h1, h2⟩ := hat1.norm.lt_len hf1.repr (by rw [hat1.pos]; omega)
        rw [hf1.col, hf1.repr.vals _ h1]
        have := hat1.pos
        rw [hz] at this
        congr 1
      · rw [hcn]; exact hv
  · by_cases hp : p < b
    · have hin := (hat.selfInRange hf).mpr hp
      obtain ⟨h1, h2⟩ := hat.norm.lt_len hf.repr (by rw [hat.pos]; omega)
      have hpe := hat.pos
      have hle := hat.le
      have hc' : cur.next = .at (slice data (p + 1) b) := by
        rw [hc, Cur.next, slice_tail hb]
      by_cases hstop : E (s.el + 1) ≤ s.inc + 1 + E s.el
      · refine fin { s with el := s.el + 1, inc := 0 } (p + 1) ?_
          ⟨hf.repr, hf.col, hf.lnorm, hf.lpos, hf.unorm, hf.upos⟩
          ⟨hat.init, ?_, by simp; omega, by omega⟩ hc' fun hpb => ?_
        · simp [advance, hat.init, hin, hf.col, hf.repr.endBefore (Nat.le_of_lt h1),
            hf.repr.ends _ h1, hstop]
        · by_cases hn : s.el + 1 < n
          · exact .inl ⟨hn, by have := hf.repr.Elt _ hn; simpa using this⟩
          · exact .inr ⟨by simp; omega, rfl⟩
        · simp only [nextValue, if_true]
          have hn : s.el + 1 < n := by
            by_contra hn
            have : s.el + 1 = n := by omega
            have h3 := hf.repr.En
            rw [← this] at h3
            omega
          rw [hf.col, hf.repr.vals _ hn]
          congr 1; omega
      · refine fin { s with inc := s.inc + 1 } (p + 1) ?_
          ⟨hf.repr, hf.col, hf.lnorm, hf.lpos, hf.unorm, hf.upos⟩
          ⟨hat.init, .inl ⟨h1, by simp; omega⟩, by simp; omega, by omega⟩ hc' fun hpb => ?_
        · simp [advance, hat.init, hin, hf.col, hf.repr.endBefore (Nat.le_of_lt h1),
            hf.repr.ends _ h1, hstop]
        · obtain ⟨d, hd⟩ := hf.repr.get_inc h1
          obtain ⟨x, hx⟩ : ∃ x, data[p]? = some x := ⟨_, List.getElem?_eq_getElem (by omega)⟩
          simp only [nextValue, hcur, hp, if_true, hx, hf.col, hd, Nat.add_eq_zero_iff, Nat.one_ne_zero, and_false,
            if_false, Option.bind_eq_bind, Option.bind_some]
          rw [← hpe] at hx
          rw [hf.repr.offset_one L h1 (by omega) hd hx, hpe]
          
    · have hin : s.selfInRange = false := by
        have := hat.selfInRange hf
        cases hh : s.selfInRange
        · rfl
        · exact absurd (this.mp hh) hp
      refine fin s p (by simp [advance, hin, initIndices, hat.init]) hf hat ?_ fun h => absurd h hp
      rw [hc, Cur.next, slice_nil (by omega)]; rfl

/-- `Iterator::find`: scanning forward from position `p`. -/
theorem find_sim (L : RleLaws r safe) (hlen : data.length < 2 ^ 63) (v : α) (m : Nat) :
    ∀ (s : RleScan α Step) (p : Nat), b - p ≤ m → Sim r c data n E a b s (.at (slice data p b)) →
    ∃ s' l, (slice data (p + 1) b).dropWhile (· < v) = l ∧
      s.find r v = some (l.head?, s') ∧ Sim r c data n E a b s' (.at l) := by
  induction m with
  | zero =>
    intro s p hm h
    have hb := h.1.b_le
    obtain ⟨s', h1, h2⟩ := next_sim L hlen _ h
    have hnil : slice data p b = [] := slice_nil (by omega)
    have hnil' : slice data (p + 1) b = [] := slice_nil (by omega)
    refine ⟨s', [], by rw [hnil']; rfl, ?_, ?_⟩
    · rw [find]
      simp only [ops] at h1
      rw [h1, hnil]; simp [Cur.next, Cur.current]
    · rw [hnil] at h2; exact h2
  | succ m ih =>
    intro s p hm h
    have hb := h.1.b_le
    obtain ⟨s', h1, h2⟩ := next_sim L hlen _ h
    simp only [ops] at h1
    rw [find, h1]
    simp only [Cur.next, slice_tail hb] at h2 ⊢
    by_cases hp : p + 1 < b
    · have hcons := slice_cons hp hb
      simp only [Cur.current, hcons, List.head?_cons, Option.bind_eq_bind, Option.bind_some]
      by_cases hv : v ≤ data[p + 1]
      · refine ⟨s', slice data (p + 1) b, ?_, ?_, h2⟩
        · rw [List.dropWhile_cons, if_neg (by simpa using hv), ← hcons]
        · simp [hv, hcons]
      · obtain ⟨s'', l, e1, e2, e3⟩ := ih s' (p + 1) (by omega) h2
        refine ⟨s'', l, ?_, ?_, e3⟩
        · rw [List.dropWhile_cons, if_pos (by simpa using hv)]; exact e1
        · simp only [hv, if_false]; exact e2
    · have hnil : slice data (p + 1) b = [] := slice_nil (by omega)
      rw [hnil] at h2 ⊢
      exact ⟨s', [], rfl, by simp [Cur.current], h2⟩

theorem seek_sim (L : RleLaws r safe) (hlen : data.length < 2 ^ 63)
    (hs : (slice data a b).Pairwise (· ≤ ·)) (v : α) (hsafe : ∀ x ∈ data, safe v x) (cur : Cur α)
    (h : Sim r c data n E a b s cur) :
    ∃ s', (ops r).seek s v = some ((cur.seek v).current, s') ∧
      Sim r c data n E a b s' (cur.seek v) := by
  obtain ⟨hf, h⟩ := h
  have hb := hf.b_le
  by_cases hv : s.column.values = []
  · have hn : n = 0 := by rw [← hf.repr.vlen, ← hf.col, hv]; rfl
    have hd : data = [] := by
      have := hf.repr.En
      rw [hn, hf.repr.E0] at this
      exact List.length_eq_zero_iff.mp this.symm
    have hnil : ∀ p, slice data p b = [] := by intro p; simp [slice, hd]
    have hseek : cur.seek v = .at [] := by
      rcases h with ⟨_, _, rfl | ⟨_, rfl⟩⟩ | ⟨p, _, rfl, _⟩ <;> simp [Cur.seek, Cur.rem, hnil]
    refine ⟨s, ?_, hf, ?_⟩
    · simp [ops, seek, hv, hseek, Cur.current]
    · rw [hseek]
      rcases h with ⟨h1, h2, _⟩ | ⟨p, h1, h2, h3⟩
      · exact .inl ⟨h1, h2, .inr ⟨hd, rfl⟩⟩
      · exact .inr ⟨p, h1, by rw [hnil], h3⟩
  · have hv' : s.column.values.isEmpty = false := by
      cases hh : s.column.values with
      | nil => exact absurd hh hv
      | cons => rfl
    -- state after `initialize_indices`
    obtain ⟨p, hf1, hat, hcur, hrem⟩ : ∃ p, Fixed r c data n E a b s.initIndices ∧
        At data n E a b s.initIndices p ∧
        (¬ p < b → s.initIndices.current = none) ∧
        cur.rem = slice data p b := by
      rcases h with ⟨hi, h2, hc⟩ | ⟨p, h1, rfl, h3⟩
      · obtain ⟨h4, h5⟩ := hf.init_at hi
        refine ⟨a, h4, h5, fun _ => by simp [initIndices, hi, h2], ?_⟩
        rcases hc with rfl | ⟨h0, rfl⟩
        · rfl
        · simp [Cur.rem, slice, h0]
      · have : s.initIndices = s := by simp [initIndices, h1.init]
        rw [this]
        exact ⟨p, hf, h1, fun hp => by simp [h3, hp], rfl⟩
    generalize hs1 : s.initIndices = s1 at hf1 hat hcur
    have hin := hat.selfInRange hf1
    have hseekc : cur.seek v = .at ((slice data p b).dropWhile (· < v)) := by
      rw [Cur.seek, hrem]
    simp only [ops, seek, hv', Bool.false_eq_true, if_false, hs1]
    by_cases hp : p < b
    swap
    · have hnil : slice data p b = [] := slice_nil (by omega)
      have hf' : s1.selfInRange = false := by
        cases hh : s1.selfInRange
        · rfl
        · exact absurd (hin.mp hh) hp
      refine ⟨s1, by simp [hf', hseekc, hnil, Cur.current], hf1, .inr ⟨p, hat, ?_, ?_⟩⟩
      · rw [hseekc, hnil]; rfl
      · simp [hp, hcur hp]
    have hin' : s1.selfInRange = true := hin.mpr hp
    obtain ⟨hel, hinc⟩ := hat.norm.lt_len hf1.repr (by rw [hat.pos]; omega)
    simp only [hin', Bool.not_true, Bool.false_eq_true, if_false]
    -- upper end of the binary search
    generalize hub : (if 0 < s1.upper.2 then s1.upper.1 + 1 else s1.upper.1) = ub
    have hpos := hat.pos
    have hle := hat.le
    have hvl := hf1.repr.vlen
    rw [← hf1.col] at hvl
    have hubn : ub ≤ n := by
      rcases hf1.unorm with ⟨h1, _⟩ | ⟨h1, h2⟩
      · rw [← hub]; split <;> omega
      · rw [← hub, h2]; simp; omega
    have hE : ∀ e, e < ub → E e < b := by
      intro e he
      have hu := hf1.upos
      rw [← hub] at he
      split at he
      · have := hf1.repr.mono (show e ≤ s1.upper.1 by omega)
          (by rcases hf1.unorm with h | h <;> omega)
        omega
      · have := hf1.repr.lt (show e < s1.upper.1 by omega)
          (by rcases hf1.unorm with h | h <;> omega)
        omega
    have helub : s1.el < ub := by
      have := (hf1.repr.lex_lt hat.norm hf1.unorm).mpr (by rw [hpos, hf1.upos]; exact hp)
      rw [← hub]; split <;> omega
    rw [if_neg (not_not.mpr ⟨by omega, by omega⟩)]
    -- the block found by binary search
    have hval : ∀ e (he : e < n), ∃ x, s1.column.values[e]? = some x ∧ data[E e]? = some x := by
      intro e he; rw [hf1.col]; exact hf1.repr.get_val he
    have hslen : (slice s1.column.values s1.el ub).length = ub - s1.el := slice_length (by omega)
    have hsget : ∀ i (hi : i < ub - s1.el), ∃ h, (slice s1.column.values s1.el ub)[i]'h
        = s1.column.values[s1.el + i]'(by omega) := by
      intro i hi
      exact ⟨by omega, by simp [slice]⟩
    have hvdata : ∀ e (he : e < n), s1.column.values[e]'(by omega) = data[E e]'(by
        have := hf1.repr.Elt e he; have := hf1.repr.Ele (show e + 1 ≤ n by omega); omega) := by
      intro e he
      obtain ⟨x, h1, h2⟩ := hval e he
      rw [List.getElem?_eq_getElem (by omega)] at h1
      have hl := (List.getElem?_eq_some_iff.mp h2).1
      rw [List.getElem?_eq_getElem hl] at h2
      simp only [Option.some.injEq] at h1 h2
      rw [h1, h2]
    -- sortedness of positions
    have hsort : ∀ i j (hj : j < b) (_ : a ≤ i) (_ : i ≤ j), data[i]'(by omega) ≤ data[j]'(by omega) :=
      fun i j hj h1 h2 => slice_sorted hb hs h1 h2 hj
    obtain ⟨res, bi, hres, hbi, hbub, hskip⟩ : ∃ res bi,
        binarySearch (slice s1.column.values s1.el ub) v = some res ∧
        okOrErr res - 1 + s1.el = bi ∧ bi < ub ∧
        (s1.el < bi → ∀ h : bi < n, data[E bi]'(by
          have := hf1.repr.Elt bi h; have := hf1.repr.Ele (show bi + 1 ≤ n by omega); omega) < v) := by
      rcases binarySearch_spec (slice s1.column.values s1.el ub) v with ⟨i, hi, h1, h2⟩ | ⟨i, h1, h2, h3⟩
      · refine ⟨_, _, h1, rfl, by simp only [okOrErr]; omega, ?_⟩
        simp only [okOrErr]
        intro hlt hbn
        have hi1 : 1 < i := by omega
        obtain ⟨_, h4⟩ := hsget i (by omega)
        rw [h4, hvdata _ (by omega)] at h2
        have he1 : i - 1 + s1.el = s1.el + i - 1 := by omega
        have hEle : E (i - 1 + s1.el) < E (s1.el + i) := hf1.repr.lt (by omega) (by omega)
        have hlo : p ≤ E (i - 1 + s1.el) := by
          have := hf1.repr.mono (show s1.el + 1 ≤ i - 1 + s1.el by omega) (by omega)
          omega
        have hle1 := hsort (E (i - 1 + s1.el)) (E (s1.el + i)) (hE _ (by omega)) (by omega) (by omega)
        rw [h2] at hle1
        refine lt_of_le_of_ne hle1 fun heq => ?_
        -- two blocks starting with the same value would have been merged
        have hen : i - 1 + s1.el + 1 = s1.el + i := by omega
        have hall : ∀ j (hj : j < data.length), E (i - 1 + s1.el) ≤ j → j ≤ E (s1.el + i) → data[j] = v := by
          intro j hj h5 h6
          have hb1 := hE (s1.el + i) (by omega)
          have h7 := hsort (E (i - 1 + s1.el)) j (by omega) (by omega) h5
          have h8 := hsort j (E (s1.el + i)) hb1 (by omega) h6
          rw [h2] at h8
          rw [heq] at h7
          exact le_antisymm h8 h7
        have hb1 := hE (s1.el + i) (by omega)
        have hm := hf1.repr.maximal (i - 1 + s1.el) (by omega) v v
          (by rw [hen, List.getElem?_eq_getElem (by omega), hall _ _ (by omega) (by omega)])
          (by rw [hen, List.getElem?_eq_getElem (by omega), hall _ _ (by omega) (by omega)])
          (L.diff_self v)
        obtain ⟨d, hd⟩ := hf1.repr.get_inc (show i - 1 + s1.el < n by omega)
        by_cases hone : E (i - 1 + s1.el + 1) = E (i - 1 + s1.el) + 1
        · exact hm (hf1.repr.single _ (by omega) hone)
        · have hE2 := hf1.repr.Elt (i - 1 + s1.el) (by omega)
          have := hf1.repr.chain _ (by omega) d hd (E (i - 1 + s1.el)) (le_refl _) (by omega) v v
            (by rw [List.getElem?_eq_getElem (by omega), hall _ _ (by omega) (by omega)])
            (by rw [List.getElem?_eq_getElem (by omega), hall _ _ (by omega) (by omega)])
          rw [L.diff_self v] at this
          simp only [Option.some.injEq] at this
          subst this
          exact hm hd
      · refine ⟨_, _, h1, rfl, by simp only [okOrErr]; omega, ?_⟩
        simp only [okOrErr]
        intro hlt hbn
        have h3 := h3 (by omega) (by omega)
        obtain ⟨_, h4⟩ := hsget (i - 1) (by omega)
        rw [h4, hvdata _ (by omega)] at h3
        have e : s1.el + (i - 1) = i - 1 + s1.el := by omega
        simp only [e] at h3
        exact h3
    have hbin : bi < n := by omega
    have helbi : s1.el ≤ bi := by omega
    have hEb := hf1.repr.Elt bi hbin
    have hEbl := hf1.repr.Ele (show bi + 1 ≤ n by omega)
    -- where `seek` jumps to
    obtain ⟨te, ti, htgt, htnorm, htskip⟩ : ∃ te ti, seekTarget r s1.column bi v = some (te, ti) ∧
        Repr.Norm n E te ti ∧
        ∀ i (hi : i < data.length), p ≤ i → i < E te + ti → i < b → data[i] < v := by
      obtain ⟨start, hst, hstd⟩ := hval bi hbin
      obtain ⟨d, hd⟩ := hf1.repr.get_inc hbin
      have hstd' : data[E bi] = start := by
        rw [List.getElem?_eq_getElem (by omega)] at hstd; simpa using hstd
      have hbefore : ∀ i (hi : i < data.length), p ≤ i → i < E bi → i < b → data[i] < v := by
        intro i hi h1 h2 h3
        have hlt : s1.el < bi := by
          by_contra hc
          have : s1.el = bi := by omega
          rw [this] at hpos; omega
        exact lt_of_le_of_lt (hsort i (E bi) (hE bi hbub) (by omega) (by omega)) (hskip hlt hbin)
      have hnormb : Repr.Norm n E bi 0 := .inl ⟨hbin, by omega⟩
      have hnormb1 : Repr.Norm n E (bi + 1) 0 := by
        by_cases hc : bi + 1 < n
        · exact .inl ⟨hc, by have := hf1.repr.Elt _ hc; omega⟩
        · exact .inr ⟨by omega, rfl⟩
      have hch := fun m (hm : E bi + m < E (bi + 1)) => hf1.repr.chain_fun hbin hd (x0 := start) hm
      have hf0 : data.getD (E bi + 0) start = start := by
        simp [List.getD_eq_getElem?_getD, hstd]
      simp only [seekTarget, hst, hf1.col, hd, Option.bind_eq_bind, Option.bind_some]
      rw [hf1.col] at hst
      simp only [hst, Option.bind_some]
      by_cases c1 : v ≤ start
      · exact ⟨bi, 0, by simp [c1], hnormb, fun i hi h1 h2 h3 => hbefore i hi h1 (by omega) h3⟩
      · have c1' : start < v := not_le.mp c1
        simp only [c1, if_false]
        by_cases c2 : d = r.zeroStep
        · refine ⟨bi + 1, 0, by simp [c2], hnormb1, fun i hi h1 h2 h3 => ?_⟩
          by_cases hc : i < E bi
          · exact hbefore i hi h1 hc h3
          · have hconst : ∀ j, E bi + j < E (bi + 1) → data.getD (E bi + j) start = start := by
              intro j
              induction j with
              | zero => intro _; exact hf0
              | succ j ih =>
                intro hj
                have h5 := hch (j + 1) hj j (by omega)
                rw [c2] at h5
                rw [← L.zero_eq _ _ h5]
                exact ih (by omega)
            have := hconst (i - E bi) (by omega)
            have e : E bi + (i - E bi) = i := by omega
            rw [e, getD_of_lt _ _ hi] at this
            rw [this]; exact c1'
        · simp only [c2, if_false]
          cases hsi : r.stepInc d with
          | none =>
            exact ⟨bi, 0, rfl, hnormb, fun i hi h1 h2 h3 => hbefore i hi h1 (by omega) h3⟩
          | some inc =>
            obtain ⟨k, hk1, hk2⟩ := L.floorDiv v start d inc c1' c2 hsi
              (hsafe start (by rw [← hstd']; exact List.getElem_mem _))
            have hblock : ∀ i (hi : i < data.length), E bi ≤ i → i < E (bi + 1) → i < E bi + k →
                data[i] < v := by
              intro i hi h1 h2 h3
              have := hk2 (fun j => data.getD (E bi + j) start) (i - E bi) hf0
                (hch (i - E bi) (by omega)) (i - E bi) (le_refl _) (by omega)
              have e : E bi + (i - E bi) = i := by omega
              simp only [e, getD_of_lt _ _ hi] at this
              exact this
            simp only [hk1, hf1.repr.endBefore (Nat.le_of_lt hbin), hf1.repr.ends _ hbin,
              Option.bind_some]
            by_cases c3 : E (bi + 1) ≤ k + E bi
            · refine ⟨bi + 1, 0, by simp [c3], hnormb1, fun i hi h1 h2 h3 => ?_⟩
              by_cases hc : i < E bi
              · exact hbefore i hi h1 hc h3
              · exact hblock i hi (by omega) (by omega) (by omega)
            · refine ⟨bi, k, by simp [c3], .inl ⟨hbin, by omega⟩, fun i hi h1 h2 h3 => ?_⟩
              by_cases hc : i < E bi
              · exact hbefore i hi h1 hc h3
              · exact hblock i hi (by omega) (by omega) (by omega)
    simp only [hres, hbi, htgt, Option.bind_eq_bind, Option.bind_some]
    -- the state after the jump
    generalize hs2 : (if s1.el < te ∨ te = s1.el ∧ s1.inc < ti then { s1 with el := te, inc := ti } else s1) = s2
    obtain ⟨q, hf2, hat2, hskipq, hpq⟩ : ∃ q, Fixed r c data n E a b s2 ∧ At data n E a b s2 q ∧
        (∀ i (hi : i < data.length), p ≤ i → i < q → i < b → data[i] < v) ∧ p ≤ q := by
      have hlex := hf1.repr.lex_lt hat.norm htnorm
      by_cases hc : s1.el < te ∨ te = s1.el ∧ s1.inc < ti
      · rw [if_pos hc] at hs2
        have hlt : E s1.el + s1.inc < E te + ti := hlex.mp (by rcases hc with h | ⟨h, h'⟩
                                                               · exact .inl h
                                                               · exact .inr ⟨h.symm, h'⟩)
        subst hs2
        exact ⟨E te + ti, ⟨hf1.repr, hf1.col, hf1.lnorm, hf1.lpos, hf1.unorm, hf1.upos⟩,
          ⟨hat.init, htnorm, rfl, by omega⟩, htskip, by omega⟩
      · rw [if_neg hc] at hs2
        subst hs2
        exact ⟨p, hf1, hat, fun i hi h1 h2 => by omega, le_refl _⟩
    have hdrop : (slice data p b).dropWhile (· < v) = (slice data q b).dropWhile (· < v) :=
      slice_dropWhile_skip hb hpq hskipq
    rw [hseekc, hdrop]
    have hin2 := hat2.selfInRange hf2
    by_cases hqb : q < b
    · rw [if_pos (hin2.mpr hqb), hat2.value hf2 L hlen hqb, List.getElem?_eq_getElem (by omega)]
      simp only [Option.bind_some]
      have hcons := slice_cons hqb hb
      by_cases hvq : v ≤ data[q]
      · rw [if_pos hvq]
        have : (slice data q b).dropWhile (· < v) = slice data q b := by
          rw [hcons, List.dropWhile_cons, if_neg (by simpa using hvq)]
        rw [this]
        refine ⟨{ s2 with current := some data[q] }, ?_,
          ⟨hf2.repr, hf2.col, hf2.lnorm, hf2.lpos, hf2.unorm, hf2.upos⟩,
          .inr ⟨q, ⟨hat2.init, hat2.norm, hat2.pos, hat2.le⟩, rfl, ?_⟩⟩
        · simp [Cur.current, hcons]
        · simp [hqb]
      · rw [if_neg hvq]
        have hsim : Sim r c data n E a b { s2 with current := some data[q] } (.at (slice data q b)) :=
          ⟨⟨hf2.repr, hf2.col, hf2.lnorm, hf2.lpos, hf2.unorm, hf2.upos⟩,
            .inr ⟨q, ⟨hat2.init, hat2.norm, hat2.pos, hat2.le⟩, rfl, by simp [hqb]⟩⟩
        obtain ⟨s', l, e1, e2, e3⟩ := find_sim L hlen v (b - q) _ q (le_refl _) hsim
        have : (slice data q b).dropWhile (· < v) = l := by
          rw [hcons, List.dropWhile_cons, if_pos (by simpa using hvq), e1]
        rw [this]
        exact ⟨s', e2, e3⟩
    · rw [if_neg (by simp [hin2, hqb])]
      have hnil : slice data q b = [] := slice_nil (by omega)
      have hsim : Sim r c data n E a b { s2 with current := none } (.at (slice data q b)) :=
          ⟨⟨hf2.repr, hf2.col, hf2.lnorm, hf2.lpos, hf2.unorm, hf2.upos⟩,
            .inr ⟨q, ⟨hat2.init, hat2.norm, hat2.pos, hat2.le⟩, rfl, by simp [hqb]⟩⟩
      obtain ⟨s', l, e1, e2, e3⟩ := find_sim L hlen v (b - q) _ q (le_refl _) hsim
      have hl : l = [] := by rw [← e1, slice_nil (by omega)]; rfl
      subst hl
      rw [hnil]
      exact ⟨s', e2, e3⟩

theorem narrow_sim (hr : Repr r s.column data n E) (ha : a ≤ data.length) (hb : b ≤ data.length) :
    ∃ s', s.narrow a b = some s' ∧ Sim r s.column data n E a b s' (.fresh (slice data a b)) := by
  obtain ⟨e, k, h1, h2, h3⟩ := hr.locate ha
  obtain ⟨e', k', h1', h2', h3'⟩ := hr.locate hb
  exact ⟨{ s.reset with lower := (e, k), upper := (e', k') }, by simp [narrow, h1, h1'],
    ⟨hr, rfl, h2, h3, h2', h3'⟩, .inl ⟨rfl, rfl, .inl rfl⟩⟩

theorem new_sim (hr : Repr r c data n E) :
    ∃ s, RleScan.new c = some s ∧ s.column = c ∧
      Sim r c data n E 0 data.length s (.fresh data) := by
  obtain ⟨e', k', h1', h2', h3'⟩ := hr.locate (le_refl _)
  have h0 : Repr.Norm n E 0 0 := by
    cases n with
    | zero => exact .inr ⟨rfl, rfl⟩
    | succ n => exact .inl ⟨by omega, by have := hr.Elt 0 (by omega); omega⟩
  refine ⟨⟨c, 0, 0, none, (0, 0), (e', k'), false⟩, by simp [new, hr.len, h1'], rfl, ⟨hr, rfl, h0, by simp [hr.E0], h2', h3'⟩,
    .inl ⟨rfl, rfl, .inl (by rw [slice_full])⟩⟩

end RleScan
end Verif
