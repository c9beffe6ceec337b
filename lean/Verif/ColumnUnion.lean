import Verif.ColumnJoin

/-!
# Union of column cursors

Models `/repo/nemo-physical/src/columnar/operations/union.rs`.
-/

set_option linter.unusedSimpArgs false
set_option linter.unusedSectionVars false

namespace Verif

/-- `ColumnScanUnion` (union.rs:12-31).  `active` lists the inputs that take part, `smallest` the
inputs that stand on the current value; both are shared with the trie operator in Rust. -/
structure UnionScan (n : Nat) (S α : Type) where
  scans : Fin n → S
  active : List (Fin n)
  smallest : List (Fin n)
  cur : Option α

namespace UnionScan
variable {n : Nat} {S α : Type} [LinearOrder α]

/-- update of `next_smallest` (union.rs:75-81 and 108-114) -/
def lower (cmp ns : Option α) : Option α :=
  match ns with
  | none => cmp
  | some m => match cmp with
    | none => some m
    | some x => if x < m then some x else some m

/-- whether `smallest_scans` is cleared (union.rs:77-81 and 110-114) -/
def clears (cmp ns : Option α) : Bool :=
  match ns with
  | none => false
  | some m => match cmp with
    | none => false
    | some x => decide (x < m)

/-- update of `smallest_scans` for input `i` (union.rs:80-85 and 113-118) -/
def note (i : Fin n) (cmp ns : Option α) (sm : List (Fin n)) : List (Fin n) :=
  let sm := if clears cmp ns then [] else sm
  if (lower cmp ns).isSome ∧ lower cmp ns = cmp then sm ++ [i] else sm

/-- the loop over the active inputs, common to `next` (66-86) and `seek` (105-119); `probe` is what
is done with one input -/
def pass (probe : S → Option (Option α × S)) :
    List (Fin n) → (Fin n → S) → Option α → List (Fin n) →
      Option ((Fin n → S) × Option α × List (Fin n))
  | [], scans, ns, sm => some (scans, ns, sm)
  | i :: is, scans, ns, sm =>
    (probe (scans i)).bind fun r =>
      pass probe is (Function.update scans i r.2) (lower r.1 ns) (note i r.1 ns sm)

/-- what `next` does with one input (union.rs:67-73) -/
def nextProbe (ops : ScanOps S α) (smallest : Option α) (s : S) : Option (Option α × S) :=
  if ops.current s = smallest then ops.next s else some (ops.current s, s)

/-- store the outcome of a pass (union.rs:88-90, 121-123) -/
def finish (s : UnionScan n S α) (q : (Fin n → S) × Option α × List (Fin n)) :
    Option α × UnionScan n S α :=
  (q.2.1, { s with scans := q.1, smallest := q.2.2, cur := q.2.1 })

/-- `ColumnScanUnion` as a cursor: `next` (58-91), `seek` (98-124), `current` (126-128) -/
def ops (ops : ScanOps S α) : ScanOps (UnionScan n S α) α where
  next s := (pass (nextProbe ops s.cur) s.active s.scans none []).map (finish s)
  seek s v := (pass (fun c => ops.seek c v) s.active s.scans none []).map (finish s)
  current s := s.cur

/-- `ColumnScanUnion::new` (38-49) with a cleared list of smallest scans -/
def new (scans : Fin n → S) (active : List (Fin n)) : UnionScan n S α :=
  { scans := scans, active := active, smallest := [], cur := none }

/-! ### proof -/

/-- `ns` is the least of the values `e i`, `i ∈ done`, and `sm` are the indices attaining it -/
def Least (e : Fin n → Option α) (done : List (Fin n)) (ns : Option α) (sm : List (Fin n)) : Prop :=
  (∀ i ∈ done, ∀ x, e i = some x → ∃ m, ns = some m ∧ m ≤ x) ∧
  (∀ m, ns = some m → ∃ i ∈ done, e i = some m) ∧
  sm = done.filter (fun i => ns.isSome ∧ e i = ns)

theorem Least.snoc {e : Fin n → Option α} {done : List (Fin n)} {ns : Option α}
    {sm : List (Fin n)} (h : Least e done ns sm) (i : Fin n) :
    Least e (done ++ [i]) (lower (e i) ns) (note i (e i) ns sm) := by
  obtain ⟨h1, h2, h3⟩ := h
  cases ns with
  | none =>
    have hnone : ∀ j ∈ done, e j = none := by
      intro j hj
      cases hej : e j with
      | none => rfl
      | some x => obtain ⟨m, hm, -⟩ := h1 j hj x hej; simp at hm
    have hsm : sm = [] := by rw [h3]; simp
    subst hsm
    refine ⟨?_, ?_, ?_⟩
    · intro j hj x hx
      simp at hj
      rcases hj with hj | rfl
      · rw [hnone j hj] at hx; simp at hx
      · exact ⟨x, by simp [lower, hx], le_rfl⟩
    · intro m hm
      exact ⟨i, by simp, by simpa [lower] using hm⟩
    · cases hei : e i with
      | none => simp [note, lower, clears]
      | some x =>
        have : done.filter (fun j => decide (e j = some x)) = [] := by
          rw [List.filter_eq_nil_iff]
          intro j hj
          simp [hnone j hj]
        simp [note, lower, clears, List.filter_append, this, hei]
  | some m =>
    cases hei : e i with
    | none =>
      refine ⟨?_, ?_, ?_⟩
      · intro j hj x hx
        simp at hj
        rcases hj with hj | rfl
        · simpa [lower] using h1 j hj x hx
        · rw [hei] at hx; simp at hx
      · intro m' hm'
        simp [lower] at hm'
        subst hm'
        obtain ⟨j, hj, hj'⟩ := h2 m rfl
        exact ⟨j, by simp [hj], hj'⟩
      · simp [note, lower, clears, h3, List.filter_append, hei]
    | some x =>
      by_cases hx : x < m
      · refine ⟨?_, ?_, ?_⟩
        · intro j hj y hy
          simp at hj
          refine ⟨x, by simp [lower, hx], ?_⟩
          rcases hj with hj | rfl
          · obtain ⟨m', hm', hle⟩ := h1 j hj y hy
            cases hm'
            exact (hx.le).trans hle
          · rw [hei] at hy; cases hy; exact le_rfl
        · intro m' hm'
          simp [lower, hx] at hm'
          subst hm'
          exact ⟨i, by simp, hei⟩
        · have : done.filter (fun j => decide (e j = some x)) = [] := by
            rw [List.filter_eq_nil_iff]
            intro j hj hj'
            simp at hj'
            obtain ⟨m', hm', hle⟩ := h1 j hj x hj'
            cases hm'
            exact absurd hx (not_lt.mpr hle)
          simp [note, lower, clears, List.filter_append, this, hei, hx]
      · refine ⟨?_, ?_, ?_⟩
        · intro j hj y hy
          simp at hj
          refine ⟨m, by simp [lower, hx], ?_⟩
          rcases hj with hj | rfl
          · obtain ⟨m', hm', hle⟩ := h1 j hj y hy
            cases hm'
            exact hle
          · rw [hei] at hy; cases hy; exact not_lt.mp hx
        · intro m' hm'
          simp [lower, hx] at hm'
          subst hm'
          obtain ⟨j, hj, hj'⟩ := h2 m rfl
          exact ⟨j, by simp [hj], hj'⟩
        · simp only [note, lower, clears, hx, decide_false, h3, List.filter_append, hei]
          by_cases e1 : x = m
          · subst e1; simp [hei]
          · simp [hei, e1, Ne.symm e1]

/-- specification of the loop over the active inputs -/
theorem pass_spec (cops : ScanOps S α) (probe : S → Option (Option α × S)) (cs' : Fin n → Cur α)
    (is done : List (Fin n)) (scans : Fin n → S) (ns : Option α) (sm : List (Fin n))
    (hnd : (done ++ is).Nodup)
    (hdone : ∀ i ∈ done, Behaves cops (scans i) (cs' i))
    (hprobe : ∀ i ∈ is, ∃ s', probe (scans i) = some ((cs' i).current, s') ∧
      Behaves cops s' (cs' i))
    (hle : Least (fun i => (cs' i).current) done ns sm) :
    ∃ scans' ns' sm', pass probe is scans ns sm = some (scans', ns', sm') ∧
      (∀ i ∈ done ++ is, Behaves cops (scans' i) (cs' i)) ∧
      Least (fun i => (cs' i).current) (done ++ is) ns' sm' := by
  induction is generalizing done scans ns sm with
  | nil => exact ⟨scans, ns, sm, rfl, by simpa using hdone, by simpa using hle⟩
  | cons i is ih =>
    obtain ⟨s', hp, hb⟩ := hprobe i (by simp)
    simp only [pass, hp, Option.bind_some]
    have hnd' : ((done ++ [i]) ++ is).Nodup := by simpa using hnd
    have hi : ∀ j ∈ done, j ≠ i := by
      intro j hj e
      subst e
      rw [List.nodup_append] at hnd
      exact hnd.2.2 j hj j (by simp) rfl
    have hi' : ∀ j ∈ is, j ≠ i := by
      intro j hj e
      subst e
      rw [List.nodup_append] at hnd
      exact (List.nodup_cons.mp hnd.2.1).1 hj
    obtain ⟨sc, n', m', h1, h2, h3⟩ := ih (done ++ [i]) (Function.update scans i s')
      (lower (cs' i).current ns) (note i (cs' i).current ns sm) hnd' (by
        intro j hj
        simp at hj
        rcases hj with hj | rfl
        · rw [Function.update_of_ne (hi j hj)]; exact hdone j hj
        · simpa using hb) (by
        intro j hj
        rw [Function.update_of_ne (hi' j hj)]
        exact hprobe j (by simp [hj])) (hle.snoc i)
    exact ⟨sc, n', m', h1, by simpa using h2, by simpa using h3⟩

/-- simulation relation; `L` are the contents of the inputs at the start -/
structure Sim (cops : ScanOps S α) (L : Fin n → List α) (act : List (Fin n))
    (s : UnionScan n S α) (c : Cur α) : Prop where
  hact : s.active = act
  nodup : act.Nodup
  asc : Asc c.rem
  cur : s.cur = c.current
  ex : ∃ cs : Fin n → Cur α,
    (∀ i ∈ act, Behaves cops (s.scans i) (cs i) ∧ Asc (cs i).rem) ∧
    (∀ x, x ∈ c.rem ↔ ∃ i ∈ act, x ∈ (cs i).rem) ∧
    (∀ i ∈ act, ∀ x ∈ c.rem, x ∈ L i ↔ x ∈ (cs i).rem) ∧
    (∀ l, c = .fresh l → ∀ i ∈ act, ∃ l', cs i = .fresh l') ∧
    (∀ l, c = .at l → (∀ i ∈ act, ∃ l', cs i = .at l') ∧
      s.smallest = act.filter (fun i => l.head?.isSome ∧ (cs i).current = l.head?))

theorem finish_spec (cops : ScanOps S α) (L : Fin n → List α) (act : List (Fin n))
    (s : UnionScan n S α) (hact : s.active = act) (hnd : act.Nodup)
    (probe : S → Option (Option α × S)) (cs' : Fin n → Cur α) (l : List α) (hl : Asc l)
    (hprobe : ∀ i ∈ act, ∃ s', probe (s.scans i) = some ((cs' i).current, s') ∧
      Behaves cops s' (cs' i))
    (hasc : ∀ i ∈ act, Asc (cs' i).rem) (hat : ∀ i ∈ act, ∃ l', cs' i = .at l')
    (hmem : ∀ x, x ∈ l ↔ ∃ i ∈ act, x ∈ (cs' i).rem)
    (hL : ∀ i ∈ act, ∀ x ∈ l, x ∈ L i ↔ x ∈ (cs' i).rem) :
    ∃ s', (pass probe s.active s.scans none []).map (finish s) = some ((Cur.at l).current, s') ∧
      Sim cops L act s' (.at l) := by
  obtain ⟨sc, ns, sm, h1, h2, h3⟩ := pass_spec cops probe cs' act [] s.scans none []
    (by simpa using hnd) (by simp) hprobe ⟨by simp, by simp, by simp⟩
  simp only [List.nil_append] at h2 h3
  obtain ⟨l1, l2, l3⟩ := h3
  beta_reduce at l1 l2 l3
  have hns : ns = l.head? := by
    cases l with
    | nil =>
      cases ns with
      | none => rfl
      | some m =>
        obtain ⟨i, hi, hi'⟩ := l2 m rfl
        obtain ⟨l', hl'⟩ := hat i hi
        rw [hl'] at hi'
        have : m ∈ ([] : List α) := (hmem m).mpr ⟨i, hi, by
          rw [hl']; exact List.mem_of_head? (by simpa [Cur.current, Cur.rem] using hi')⟩
        simp at this
    | cons a t =>
      obtain ⟨i, hi, hia⟩ := (hmem a).mp (by simp)
      obtain ⟨li, hli⟩ := hat i hi
      have hai := hasc i hi
      rw [hli] at hia hai
      simp only [Cur.rem] at hia hai
      cases li with
      | nil => simp at hia
      | cons b tb =>
        have hb : b ∈ a :: t := (hmem b).mpr ⟨i, hi, by rw [hli]; simp [Cur.rem]⟩
        have hab : b = a := by
          rcases List.mem_cons.mp hb with e | e
          · exact e
          · rcases List.mem_cons.mp hia with e' | e'
            · exact e'.symm
            · exact absurd ((asc_cons.mp hl).1 b e) (not_lt.mpr ((asc_cons.mp hai).1 a e').le)
        subst hab
        obtain ⟨m, hm, hle⟩ := l1 i hi b (by rw [hli]; rfl)
        obtain ⟨j, hj, hj'⟩ := l2 m hm
        obtain ⟨lj, hlj⟩ := hat j hj
        have hml : m ∈ b :: t := (hmem m).mpr ⟨j, hj, by
          simp only [hlj, Cur.current] at hj'
          rw [hlj]; exact List.mem_of_head? hj'⟩
        rw [hm]
        rcases List.mem_cons.mp hml with e | e
        · simp [e]
        · exact absurd ((asc_cons.mp hl).1 m e) (not_lt.mpr hle)
  subst hns
  rw [hact, h1]
  refine ⟨_, rfl, ⟨hact, hnd, hl, rfl, cs', fun i hi => ⟨h2 i hi, hasc i hi⟩, hmem, hL, by simp, ?_⟩⟩
  intro l' e
  injection e with e
  subst e
  exact ⟨hat, l3⟩

theorem sim_seek (cops : ScanOps S α) (L : Fin n → List α) (act : List (Fin n))
    (s : UnionScan n S α) (c : Cur α) (v : α) (h : Sim cops L act s c) :
    ∃ s', (ops cops).seek s v = some ((c.seek v).current, s') ∧ Sim cops L act s' (c.seek v) := by
  obtain ⟨cs, hb, hmem, hL, -, -⟩ := h.ex
  rw [Cur.seek_isAt c v]
  refine finish_spec cops L act s h.hact h.nodup _ (fun i => (cs i).seek v) _
    (Cur.seek_asc h.asc v) (fun i hi => (hb i hi).1.seek v)
    (fun i hi => Cur.seek_asc (hb i hi).2 v) (fun i _ => ⟨_, Cur.seek_isAt _ _⟩) ?_ ?_
  · intro x
    rw [Cur.mem_seek h.asc, hmem]
    constructor
    · intro ⟨⟨i, hi, hx⟩, hv⟩
      exact ⟨i, hi, (Cur.mem_seek (hb i hi).2 v x).mpr ⟨hx, hv⟩⟩
    · intro ⟨i, hi, hx⟩
      have := (Cur.mem_seek (hb i hi).2 v x).mp hx
      exact ⟨⟨i, hi, this.1⟩, this.2⟩
  · intro i hi x hx
    have := (Cur.mem_seek h.asc v x).mp hx
    rw [hL i hi x this.1, Cur.mem_seek (hb i hi).2]
    simp [this.2]

theorem sim_next (cops : ScanOps S α) (L : Fin n → List α) (act : List (Fin n))
    (s : UnionScan n S α) (c : Cur α) (h : Sim cops L act s c) :
    ∃ s', (ops cops).next s = some (c.next.current, s') ∧ Sim cops L act s' c.next := by
  obtain ⟨cs, hb, hmem, hL, hf, ha⟩ := h.ex
  obtain ⟨l, hl, hl'⟩ := Cur.next_isAt c
  have hasc := h.asc
  rw [hl]
  refine finish_spec cops L act s h.hact h.nodup _
    (fun i => if (cs i).current = c.current then (cs i).next else cs i) l
    (by rw [hl']; exact Cur.next_asc h.asc) ?_ ?_ ?_ ?_ ?_
  · intro i hi
    unfold nextProbe
    rw [(hb i hi).1.current, h.cur]
    split
    · exact (hb i hi).1.next
    · exact ⟨_, rfl, (hb i hi).1⟩
  · intro i hi
    split
    · exact Cur.next_asc (hb i hi).2
    · exact (hb i hi).2
  · intro i hi
    split
    · obtain ⟨l', h', -⟩ := Cur.next_isAt (cs i); exact ⟨l', h'⟩
    · next hne =>
      cases c with
      | fresh l0 =>
        obtain ⟨l', hl''⟩ := hf l0 rfl i hi
        rw [hl''] at hne
        exact absurd rfl hne
      | «at» l0 => exact (ha l0 rfl).1 i hi
  all_goals
    have key : ∀ i ∈ act, ∀ x, x ∈ (if (cs i).current = c.current then (cs i).next else cs i).rem ↔
        x ∈ (cs i).rem ∧ (∀ m l0, c = .at (m :: l0) → x ≠ m) := by
      intro i hi x
      cases c with
      | fresh l0 =>
        obtain ⟨l', hl''⟩ := hf l0 rfl i hi
        simp [hl'', Cur.current, Cur.next, Cur.rem]
      | «at» l0 =>
        obtain ⟨li, hli⟩ := (ha l0 rfl).1 i hi
        have hai := (hb i hi).2
        have hm1 : ∀ x ∈ (cs i).rem, x ∈ l0 := fun x hx => (hmem x).mpr ⟨i, hi, hx⟩
        rw [hli] at hai hm1 ⊢
        simp only [Cur.current, Cur.next, Cur.rem] at hai hm1 ⊢
        cases l0 with
        | nil =>
          cases li with
          | nil => simp [Cur.rem]
          | cons b t => exact absurd (hm1 b (by simp)) (by simp)
        | cons m l0 =>
          cases li with
          | nil => simp [Cur.rem]
          | cons b t =>
            have h1 := (asc_cons.mp hai).1
            have hbm := hm1 b (by simp)
            by_cases e : b = m
            · subst e
              simp only [List.head?_cons, if_true, Cur.rem, List.tail_cons, List.mem_cons,
                Cur.at.injEq, List.cons.injEq]
              constructor
              · intro hx
                refine ⟨Or.inr hx, fun m' l' ⟨e1, _⟩ e2 => ?_⟩
                rw [e2, ← e1] at hx
                exact absurd (h1 b hx) (lt_irrefl _)
              · rintro ⟨rfl | hx, hne⟩
                · exact absurd rfl (hne x l0 ⟨rfl, rfl⟩)
                · exact hx
            · simp only [List.head?_cons, Option.some.injEq, e, if_false, Cur.rem, List.mem_cons,
                Cur.at.injEq, List.cons.injEq]
              constructor
              · intro hx
                refine ⟨hx, fun m' l' ⟨e1, _⟩ e2 => ?_⟩
                subst e1; subst e2
                have hmb : x < b := by
                  rcases List.mem_cons.mp hbm with e' | e'
                  · exact absurd e' e
                  · exact (asc_cons.mp hasc).1 b e'
                rcases hx with hx | hx
                · exact e hx.symm
                · exact absurd (h1 x hx) (not_lt.mpr hmb.le)
              · exact fun hx => hx.1
    have keyl : ∀ x, x ∈ l ↔ x ∈ c.rem ∧ (∀ m l0, c = .at (m :: l0) → x ≠ m) := by
      intro x
      rw [hl']
      cases c with
      | fresh l0 => simp [Cur.next, Cur.rem]
      | «at» l0 =>
        cases l0 with
        | nil => simp [Cur.next, Cur.rem]
        | cons m l0 =>
          have h1 := (asc_cons.mp hasc).1
          simp only [Cur.next, Cur.rem, List.tail_cons, List.mem_cons,
            Cur.at.injEq, List.cons.injEq]
          constructor
          · intro hx
            refine ⟨Or.inr hx, fun m' l' ⟨e1, _⟩ e2 => ?_⟩
            rw [e2, ← e1] at hx
            exact absurd (h1 m hx) (lt_irrefl _)
          · rintro ⟨rfl | hx, hne⟩
            · exact absurd rfl (hne x l0 ⟨rfl, rfl⟩)
            · exact hx
  · intro x
    rw [keyl, hmem]
    constructor
    · intro ⟨⟨i, hi, hx⟩, hne⟩
      exact ⟨i, hi, (key i hi x).mpr ⟨hx, hne⟩⟩
    · intro ⟨i, hi, hx⟩
      have := (key i hi x).mp hx
      exact ⟨⟨i, hi, this.1⟩, this.2⟩
  · intro i hi x hx
    have h1 := (keyl x).mp hx
    rw [hL i hi x h1.1]
    exact ⟨fun h2 => (key i hi x).mpr ⟨h2, h1.2⟩, fun h2 => ((key i hi x).mp h2).1⟩

theorem sim_new (cops : ScanOps S α) (scans : Fin n → S) (act : List (Fin n)) (hnd : act.Nodup)
    (L : Fin n → List α) (hb : ∀ i ∈ act, Behaves cops (scans i) (.fresh (L i)))
    (ha : ∀ i ∈ act, Asc (L i)) (l : List α) (hl : Asc l)
    (hmem : ∀ x, x ∈ l ↔ ∃ i ∈ act, x ∈ L i) :
    Sim cops L act (new scans act) (.fresh l) :=
  ⟨rfl, hnd, hl, rfl, fun i => .fresh (L i), fun i hi => ⟨hb i hi, ha i hi⟩, hmem,
    fun _ _ _ _ => Iff.rfl, fun _ _ i _ => ⟨_, rfl⟩, by simp⟩

/-- The union of fresh cursors behaves like a fresh cursor over the values of the active inputs. -/
theorem behaves_new (cops : ScanOps S α) (scans : Fin n → S) (act : List (Fin n)) (hnd : act.Nodup)
    (L : Fin n → List α) (hb : ∀ i ∈ act, Behaves cops (scans i) (.fresh (L i)))
    (ha : ∀ i ∈ act, Asc (L i)) (l : List α) (hl : Asc l)
    (hmem : ∀ x, x ∈ l ↔ ∃ i ∈ act, x ∈ L i) :
    Behaves (ops cops) (new scans act) (.fresh l) :=
  Behaves.of_sim (Sim cops L act) (fun _ _ h => h.cur) (sim_next cops L act)
    (sim_seek cops L act) (sim_new cops scans act hnd L hb ha l hl hmem)

/-- whenever the union stands on a value, `smallest` is the list of active inputs holding it -/
theorem Sim.smallest {cops : ScanOps S α} {L : Fin n → List α} {act : List (Fin n)}
    {s : UnionScan n S α} {c : Cur α} (h : Sim cops L act s c) {v : α} (hv : c.current = some v) :
    s.smallest = act.filter (fun i => v ∈ L i) := by
  obtain ⟨cs, hb, hmem, hL, hf, ha⟩ := h.ex
  cases c with
  | fresh l => simp [Cur.current] at hv
  | «at» l =>
    simp only [Cur.current] at hv
    rw [(ha l rfl).2]
    apply List.filter_congr
    intro i hi
    obtain ⟨li, hli⟩ := (ha l rfl).1 i hi
    have hvl : v ∈ l := List.mem_of_head? hv
    have h1 := hL i hi v hvl
    have hai := (hb i hi).2
    rw [hv]
    simp only [Option.isSome_some, true_and, decide_eq_decide]
    rw [h1, hli]
    rw [hli] at hai
    simp only [Cur.current, Cur.rem] at hai ⊢
    constructor
    · exact fun e => List.mem_of_head? e
    · intro hvi
      cases li with
      | nil => simp at hvi
      | cons b t =>
        rcases List.mem_cons.mp hvi with e | e
        · simp [e]
        · have h2 := (asc_cons.mp hai).1 v e
          have h3 : b ∈ l := (hmem b).mpr ⟨i, hi, by rw [hli]; simp [Cur.rem]⟩
          cases l with
          | nil => simp at hvl
          | cons a tl =>
            simp at hv
            subst hv
            rcases List.mem_cons.mp h3 with e' | e'
            · rw [e'] at h2; exact absurd h2 (lt_irrefl _)
            · exact absurd ((asc_cons.mp h.asc).1 b e') (not_lt.mpr h2.le)

end UnionScan
end Verif
