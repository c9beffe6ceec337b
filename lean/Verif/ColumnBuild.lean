import Verif.RleScanProofs
import Verif.RleTypes

/-! # The adaptive column builder, helper lemmas for the column properties -/

set_option linter.unusedSimpArgs false
set_option linter.unusedSectionVars false

namespace Verif

variable {α Step : Type} [LinearOrder α] [DecidableEq Step] {r : RleOps α Step}
  {safe : α → α → Prop}

/-- Build a column: start with an empty builder, `add` all values in order, `finalize`
(the way every user of `ColumnBuilderAdaptive` proceeds, e.g. `from_iter`, adaptive.rs:150-159). -/
def buildColumn (r : RleOps α Step) (t : DecisionThreshold) (m : Nat) (data : List α) :
    Option (ColumnEnum α Step) := do
  let a ← data.foldlM (AdaptiveBuilder.add r) (AdaptiveBuilder.new t m)
  a.finalize r

/-- the column represents the list -/
def ColumnEnum.Stores (r : RleOps α Step) (col : ColumnEnum α Step) (data : List α) : Prop :=
  match col with
  | .vector l => l = data
  | .rle c => ∃ n E, Repr r c data n E

def AdaptiveBuilder.Ok (r : RleOps α Step) (a : AdaptiveBuilder α Step) (data : List α) : Prop :=
  match a.builder with
  | .vector l => l = data
  | .rle b => RleBuilder.Ok r b data

theorem drain_spec (L : RleLaws r safe) {c : RleCol α Step} {data : List α} {n : Nat} {E : Nat → Nat}
    {a b : Nat} (hlen : data.length < 2 ^ 63) (m : Nat) :
    ∀ (s : RleScan α Step) (cur : Cur α), cur.rem.length ≤ m → RleScan.Sim r c data n E a b s cur →
    AdaptiveBuilder.drain r s = some cur.next.rem := by
  induction m with
  | zero =>
    intro s cur hm h
    obtain ⟨s', h1, h2⟩ := RleScan.next_sim L hlen cur h
    simp only [RleScan.ops] at h1
    rw [AdaptiveBuilder.drain, h1]
    have : cur.rem = [] := List.length_eq_zero_iff.mp (by omega)
    cases cur <;> simp_all [Cur.next, Cur.current, Cur.rem]
  | succ m ih =>
    intro s cur hm h
    obtain ⟨s', h1, h2⟩ := RleScan.next_sim L hlen cur h
    have key : ∀ l, cur.next = .at l → l.length ≤ m + 1 →
        AdaptiveBuilder.drain r s = some l := by
      intro l hl hlm
      rw [hl] at h1 h2
      simp only [RleScan.ops] at h1
      rw [AdaptiveBuilder.drain, h1]
      cases l with
      | nil => simp [Cur.current]
      | cons x l =>
        -- from position `x :: l` the rest is `l`
        have hrec : ∀ (m' : Nat) (l : List α) (x : α) (s' : RleScan α Step), l.length ≤ m' →
            RleScan.Sim r c data n E a b s' (.at (x :: l)) →
            AdaptiveBuilder.drain r s' = some l := by
          intro m'
          induction m' with
          | zero =>
            intro l x s' hl hs
            have : l = [] := List.length_eq_zero_iff.mp (by omega)
            subst this
            obtain ⟨s'', e1, _⟩ := RleScan.next_sim L hlen _ hs
            simp only [RleScan.ops] at e1
            rw [AdaptiveBuilder.drain, e1]
            simp [Cur.next, Cur.current]
          | succ m' ih' =>
            intro l x s' hl hs
            obtain ⟨s'', e1, e2⟩ := RleScan.next_sim L hlen _ hs
            simp only [RleScan.ops] at e1
            rw [AdaptiveBuilder.drain, e1]
            cases l with
            | nil => simp [Cur.next, Cur.current]
            | cons y l =>
              simp only [Cur.next, Cur.current, List.tail_cons, List.head?_cons,
                Option.bind_eq_bind, Option.bind_some]
              rw [ih' l y s'' (by simpa using hl) e2]; rfl
        simp only [Cur.current, List.head?_cons, Option.bind_eq_bind, Option.bind_some]
        rw [hrec l.length l x s' (le_refl _) h2]; rfl
    cases cur with
    | fresh l => exact key l rfl hm
    | «at» l =>
      refine key l.tail rfl ?_
      simp [Cur.rem] at hm ⊢; omega

theorem AdaptiveBuilder.ok_expand (L : RleLaws r safe) {a : AdaptiveBuilder α Step} {data : List α}
    (hlen : data.length < 2 ^ 63) (h : AdaptiveBuilder.Ok r a data) :
    ∃ a', a.expandSparse r = some a' ∧ AdaptiveBuilder.Ok r a' data := by
  unfold expandSparse
  cases hb : a.builder with
  | vector l => exact ⟨a, rfl, h⟩
  | rle b =>
    simp only
    split
    · have h' : RleBuilder.Ok r b data := by simpa [Ok, hb] using h
      obtain ⟨s, h1, _, h3⟩ := RleScan.new_sim (repr_of_binv h'.1)
      have := drain_spec L hlen data.length s (.fresh data) (by simp [Cur.rem]) h3
      simp only [h1, Option.bind_eq_bind, Option.bind_some, this]
      exact ⟨_, rfl, by simp [Ok, Cur.next, Cur.rem]⟩
    · exact ⟨a, rfl, h⟩

theorem AdaptiveBuilder.ok_add (L : RleLaws r safe) {a : AdaptiveBuilder α Step} {data : List α} {v : α}
    (hlen : data.length < 2 ^ 63) (h : AdaptiveBuilder.Ok r a data) :
    ∃ a', a.add r v = some a' ∧ AdaptiveBuilder.Ok r a' (data ++ [v]) := by
  have main : ∀ a' : AdaptiveBuilder α Step, AdaptiveBuilder.Ok r a' data → ∃ a'',
      a'.pushValue r v = some a'' ∧ AdaptiveBuilder.Ok r a'' (data ++ [v]) := by
    intro a' h'
    unfold pushValue
    cases hb : a'.builder with
    | vector l =>
      have : l = data := by simpa [Ok, hb] using h'
      exact ⟨_, rfl, by simp [Ok, this]⟩
    | rle b =>
      have h' : RleBuilder.Ok r b data := by simpa [Ok, hb] using h'
      obtain ⟨b', h1, h2⟩ := RleBuilder.ok_add (v := v) h'
      simp only [h1, Option.map_some]
      exact ⟨_, rfl, by simpa [Ok] using h2⟩
  obtain ⟨a', h1, h2⟩ : ∃ a', a.maybeExpand r = some a' ∧ AdaptiveBuilder.Ok r a' data := by
    obtain ⟨ae, he1, he2⟩ := AdaptiveBuilder.ok_expand L hlen h
    unfold maybeExpand
    split
    · split
      · exact ⟨ae, he1, he2⟩
      · exact ⟨a, rfl, h⟩
    · exact ⟨a, rfl, h⟩
  obtain ⟨a'', h3, h4⟩ := main a' h2
  exact ⟨a'', by simp [add, h1, h3], h4⟩

theorem AdaptiveBuilder.ok_addAll (L : RleLaws r safe) (data : List α) :
    ∀ (a : AdaptiveBuilder α Step) (pre : List α), (pre ++ data).length < 2 ^ 63 →
      AdaptiveBuilder.Ok r a pre →
      ∃ a', data.foldlM (AdaptiveBuilder.add r) a = some a' ∧ AdaptiveBuilder.Ok r a' (pre ++ data) := by
  induction data with
  | nil => intro a pre _ h; exact ⟨a, rfl, by simpa using h⟩
  | cons v data ih =>
    intro a pre hlen h
    obtain ⟨a1, h1, h2⟩ := AdaptiveBuilder.ok_add (v := v) L (by simp at hlen; omega) h
    obtain ⟨a2, h3, h4⟩ := ih a1 (pre ++ [v]) (by simpa using hlen) h2
    refine ⟨a2, ?_, by simpa using h4⟩
    simp [List.foldlM_cons, h1, h3]

theorem AdaptiveBuilder.ok_new (t : DecisionThreshold) (m : Nat) :
    AdaptiveBuilder.Ok r (AdaptiveBuilder.new t m) [] := by
  simpa [Ok, new] using RleBuilder.ok_new

theorem buildColumn_stores (L : RleLaws r safe) (t : DecisionThreshold) (m : Nat) (data : List α)
    (hlen : data.length < 2 ^ 63) :
    ∃ col, buildColumn r t m data = some col ∧ col.Stores r data := by
  obtain ⟨a, h1, h2⟩ := AdaptiveBuilder.ok_addAll L data _ [] (by simpa using hlen)
    (AdaptiveBuilder.ok_new t m)
  obtain ⟨a', h3, h4⟩ := AdaptiveBuilder.ok_expand L hlen (by simpa using h2)
  unfold buildColumn
  simp only [h1, Option.bind_eq_bind, Option.bind_some, AdaptiveBuilder.finalize, h3]
  cases hb : a'.builder with
  | vector l => exact ⟨_, rfl, by simpa [AdaptiveBuilder.Ok, ColumnEnum.Stores, hb] using h4⟩
  | rle b =>
    have h4 : RleBuilder.Ok r b data := by simpa [AdaptiveBuilder.Ok, hb] using h4
    exact ⟨_, rfl, _, _, repr_of_binv h4.1⟩

/-- simulation relation for the scan of a column -/
def ColumnEnum.Scan.Sim (r : RleOps α Step) (data : List α) (a b : Nat) (s : ColumnEnum.Scan α Step)
    (cur : Cur α) : Prop :=
  match s with
  | .vector s => VecScan.Sim data a b s cur ∧ b ≤ data.length
  | .rle s => ∃ c n E, RleScan.Sim r c data n E a b s cur

namespace ColumnEnum

theorem Scan.sim_current {data : List α} {a b : Nat} (s : Scan α Step) (cur : Cur α)
    (h : Scan.Sim r data a b s cur) : (Scan.ops r).current s = cur.current := by
  cases s with
  | vector s => exact VecScan.sim_current h.2 s cur h.1
  | rle s =>
    obtain ⟨c, n, E, h⟩ := h
    exact RleScan.sim_current cur h

theorem Scan.sim_next (L : RleLaws r safe) {data : List α} {a b : Nat} (hlen : data.length < 2 ^ 63)
    (s : Scan α Step) (cur : Cur α) (h : Scan.Sim r data a b s cur) :
    ∃ s', (Scan.ops r).next s = some (cur.next.current, s') ∧ Scan.Sim r data a b s' cur.next := by
  cases s with
  | vector s =>
    obtain ⟨s', h1, h2⟩ := VecScan.sim_next h.2 s cur h.1
    exact ⟨.vector s', by simp [Scan.ops, h1], h2, h.2⟩
  | rle s =>
    obtain ⟨c, n, E, h⟩ := h
    obtain ⟨s', h1, h2⟩ := RleScan.next_sim L hlen cur h
    exact ⟨.rle s', by simp [Scan.ops, h1], c, n, E, h2⟩

theorem Scan.sim_seek (L : RleLaws r safe) {data : List α} {a b : Nat} (hlen : data.length < 2 ^ 63)
    (hs : (slice data a b).Pairwise (· ≤ ·)) (s : Scan α Step) (cur : Cur α) (v : α)
    (hsafe : ∀ x ∈ data, safe v x) (h : Scan.Sim r data a b s cur) :
    ∃ s', (Scan.ops r).seek s v = some ((cur.seek v).current, s') ∧
      Scan.Sim r data a b s' (cur.seek v) := by
  cases s with
  | vector s =>
    obtain ⟨s', h1, h2⟩ := VecScan.sim_seek h.2 hs s cur v h.1
    exact ⟨.vector s', by simp [Scan.ops, h1], h2, h.2⟩
  | rle s =>
    obtain ⟨c, n, E, h⟩ := h
    obtain ⟨s', h1, h2⟩ := RleScan.seek_sim L hlen hs v hsafe cur h
    exact ⟨.rle s', by simp [Scan.ops, h1], c, n, E, h2⟩

theorem Stores.iter {col : ColumnEnum α Step} {data : List α} (h : col.Stores r data) :
    ∃ s, col.iter = some s ∧ Scan.Sim r data 0 data.length s (.fresh data) := by
  cases col with
  | vector l =>
    cases h
    exact ⟨_, rfl, ⟨rfl, rfl, rfl, .inl ⟨rfl, .inl (by rw [slice_full])⟩⟩, le_refl _⟩
  | rle c =>
    obtain ⟨n, E, h⟩ := h
    obtain ⟨s, h1, _, h3⟩ := RleScan.new_sim h
    exact ⟨.rle s, by simp [ColumnEnum.iter, h1], c, n, E, h3⟩

theorem Scan.sim_narrow {data : List α} {a0 b0 : Nat} {s : Scan α Step} {cur : Cur α} {a b : Nat}
    (h : Scan.Sim r data a0 b0 s cur) (ha : a ≤ data.length) (hb : b ≤ data.length) :
    ∃ s', s.narrow a b = some s' ∧ Scan.Sim r data a b s' (.fresh (slice data a b)) := by
  cases s with
  | vector s =>
    obtain ⟨⟨rfl, _⟩, _⟩ := h
    obtain ⟨s', hs'⟩ : ∃ s', s.narrow a b = some s' := by simp [VecScan.narrow, hb]
    have := VecScan.sim_narrow hs'
    exact ⟨.vector s', by simp [Scan.narrow, hs'], this.2, hb⟩
  | rle s =>
    obtain ⟨c, n, E, h⟩ := h
    have hcol := h.1.col
    obtain ⟨s', h1, h2⟩ := RleScan.narrow_sim (s := s) (hcol ▸ h.1.repr) ha hb
    exact ⟨.rle s', by simp [Scan.narrow, h1], _, n, E, h2⟩

/-- `pos()` designates the current value -/
theorem Scan.sim_position {data : List α} {a b : Nat} {s : Scan α Step} {cur : Cur α}
    (h : Scan.Sim r data a b s cur) :
    (s.position = some none ∧ cur.current = none) ∨
    ∃ p, s.position = some (some p) ∧ a ≤ p ∧ p < b ∧ cur = .at (slice data p b) := by
  cases s with
  | vector s =>
    obtain ⟨⟨rfl, rfl, rfl, h⟩, hb⟩ := h
    rcases h with ⟨hp, rfl | ⟨_, rfl⟩⟩ | ⟨p, hp, hle, rfl⟩
    · left; simp [Scan.position, VecScan.position, hp, Cur.current]
    · left; simp [Scan.position, VecScan.position, hp, Cur.current]
    · by_cases hlt : p < s.stop
      · right; exact ⟨p, by simp [Scan.position, VecScan.position, hp, hlt], hle, hlt, rfl⟩
      · left
        exact ⟨by simp [Scan.position, VecScan.position, hp, hlt],
          by simp [Cur.current, slice_head hb, hlt]⟩
  | rle s =>
    obtain ⟨c, n, E, hf, h⟩ := h
    rcases h with ⟨hp, hc, rfl | ⟨_, rfl⟩⟩ | ⟨p, hat, rfl, hc⟩
    · left; simp [Scan.position, RleScan.position, hp, Cur.current]
    · left; simp [Scan.position, RleScan.position, hp, Cur.current]
    · have hin := hf.inRange hat.norm
      rw [hat.pos] at hin
      have hle := hat.le
      by_cases hlt : p < b
      · right
        obtain ⟨h1, h2⟩ := hat.norm.lt_len hf.repr (by rw [hat.pos]; have := hf.b_le; omega)
        refine ⟨p, ?_, hle, hlt, rfl⟩
        simp [Scan.position, RleScan.position, hat.init, hin.mpr ⟨hle, hlt⟩, hf.col,
          hf.repr.endBefore (Nat.le_of_lt h1), hat.pos]
      · left
        have : s.inRange s.el s.inc = false := by
          cases hh : s.inRange s.el s.inc
          · rfl
          · exact absurd (hin.mp hh).2 hlt
        exact ⟨by simp [Scan.position, RleScan.position, hat.init, this],
          by simp [Cur.current, slice_head hf.b_le, hlt]⟩

theorem Stores.len {col : ColumnEnum α Step} {data : List α} (h : col.Stores r data) :
    col.len = data.length := by
  cases col with
  | vector l => cases h; rfl
  | rle c => obtain ⟨n, E, h⟩ := h; exact h.len

theorem Stores.get (L : RleLaws r safe) {col : ColumnEnum α Step} {data : List α}
    (hlen : data.length < 2 ^ 63) (h : col.Stores r data) {i : Nat} (hi : i < data.length) :
    col.get r i = data[i]? := by
  cases col with
  | vector l => cases h; rfl
  | rle c => obtain ⟨n, E, h⟩ := h; exact h.get L hlen hi

end ColumnEnum

theorem collect_of_sim {S : Type} {ops : ScanOps S α} (R : S → Cur α → Prop)
    (hnext : ∀ s c, R s c → ∃ s', ops.next s = some (c.next.current, s') ∧ R s' c.next)
    {s : S} {l : List α} (h : R s (.fresh l)) : collect ops (l.length + 1) s = some l := by
  have hat : ∀ (l : List α) (x : α) (s : S), R s (.at (x :: l)) →
      collect ops (l.length + 1) s = some l := by
    intro l
    induction l with
    | nil =>
      intro x s h
      obtain ⟨s', h1, _⟩ := hnext _ _ h
      simp [collect, h1, Cur.next, Cur.current]
    | cons y l ih =>
      intro x s h
      obtain ⟨s', h1, h2⟩ := hnext _ _ h
      rw [List.length_cons, collect]
      simp only [h1, Cur.next, Cur.current, List.tail_cons, List.head?_cons, Option.bind_eq_bind,
        Option.bind_some]
      rw [ih y s' h2]; rfl
  obtain ⟨s', h1, h2⟩ := hnext _ _ h
  cases l with
  | nil => simp [collect, h1, Cur.next, Cur.current]
  | cons x l =>
    rw [List.length_cons, collect]
    simp only [h1, Cur.next, Cur.current, List.head?_cons, Option.bind_eq_bind, Option.bind_some]
    rw [hat l x s' h2]; rfl

end Verif
