import Verif.ColumnUnion

/-!
# Subtracting column cursors

Models `/repo/nemo-physical/src/columnar/operations/subtract.rs`.
-/

set_option linter.unusedSimpArgs false
set_option linter.unusedSectionVars false

namespace Verif

/-- The mutable part of `ColumnScanSubtract` (subtract.rs:15-40): the main scan, the followers
(`None` for inputs not used on this layer) and the shared vector `equal_values`. -/
structure SubState (n : Nat) (S : Type) where
  main : S
  followers : Fin n → Option S
  equal : Fin n → Bool

/-- `ColumnScanSubtract` (subtract.rs:15-40). -/
structure SubScan (n : Nat) (S α : Type) extends SubState n S where
  subtractIdx : List (Fin n)
  followIdx : List (Fin n)
  active : Fin n → Bool
  cur : Option α

namespace SubScan
variable {n : Nat} {S α : Type} [LinearOrder α]

/-- one round of the `for` loop over the subtract indices (subtract.rs:84-100).  The outer `none` is
a panic (`expect`), the inner `none` the early return at line 97. -/
def subtractPass (ops : ScanOps S α) (active : Fin n → Bool) :
    List (Fin n) → SubState n S → α → Bool → Option (SubState n S × Option (α × Bool))
  | [], st, v, flag => some (st, some (v, flag))
  | i :: is, st, v, flag =>
    if active i then
      (st.followers i).bind fun f =>
      (ops.seek f v).bind fun r =>
        if r.1 = some v then
          (ops.next st.main).bind fun q =>
            match q.1 with
            | none => some (⟨q.2, Function.update st.followers i (some r.2),
                Function.update st.equal i false⟩, none)
            | some v' => subtractPass ops active is
                ⟨q.2, Function.update st.followers i (some r.2),
                  Function.update st.equal i false⟩ v' true
        else subtractPass ops active is
          ⟨st.main, Function.update st.followers i (some r.2),
            Function.update st.equal i false⟩ v flag
    else subtractPass ops active is ⟨st.main, st.followers, Function.update st.equal i false⟩ v flag

/-- the `while` loop (subtract.rs:81-101) -/
def subtractLoop (ops : ScanOps S α) (active : Fin n → Bool) (idx : List (Fin n))
    (st : SubState n S) (v : α) : Option (SubState n S × Option α) :=
  subtractPass ops active idx st v false >>= fun r =>
    match r.2 with
    | none => some (r.1, none)
    | some q => if q.2 then subtractLoop ops active idx r.1 q.1 else some (r.1, some q.1)
partial_fixpoint

/-- the loop over the follow indices (subtract.rs:103-118) -/
def followPass (ops : ScanOps S α) (active : Fin n → Bool) (v : α) :
    List (Fin n) → SubState n S → Option (SubState n S)
  | [], st => some st
  | i :: is, st =>
    if active i then
      (st.followers i).bind fun f =>
      (ops.seek f v).bind fun r =>
        followPass ops active v is
          ⟨st.main, Function.update st.followers i (some r.2),
            if r.1 = some v then st.equal else Function.update st.equal i false⟩
    else followPass ops active v is st

/-- `move_follow_scans` (subtract.rs:75-121) -/
def moveFollow (ops : ScanOps S α) (active : Fin n → Bool) (sidx fidx : List (Fin n))
    (st : SubState n S) (v : α) : Option (SubState n S × Option α) :=
  (subtractLoop ops active sidx { st with equal := active } v).bind fun r =>
    match r.2 with
    | none => some (r.1, none)
    | some v' => (followPass ops active v' fidx r.1).map fun st' => (st', some v')

/-- common part of `next` (131-136) and `seek` (145-150): `r` is the answer of the main scan -/
def continueWith (ops : ScanOps S α) (s : SubScan n S α) (r : Option α × S) :
    Option (Option α × SubScan n S α) :=
  match r.1 with
  | none => some (none, { s with main := r.2, cur := none })
  | some v => (moveFollow ops s.active s.subtractIdx s.followIdx
      { s.toSubState with main := r.2 } v).map fun q =>
        (q.2, { s with toSubState := q.1, cur := q.2 })

/-- `ColumnScanSubtract` as a cursor: `next` (130-137), `seek` (144-151), `current` (153-155) -/
def ops (ops : ScanOps S α) : ScanOps (SubScan n S α) α where
  next s := (ops.next s.main).bind (continueWith ops s)
  seek s v := (ops.seek s.main v).bind (continueWith ops s)
  current s := s.cur

/-- `ColumnScanSubtract::new` (47-73) -/
def new (main : S) (followers : Fin n → Option S) (sidx fidx : List (Fin n))
    (active equal : Fin n → Bool) : SubScan n S α :=
  { main := main, followers := followers, equal := equal, subtractIdx := sidx, followIdx := fidx,
    active := active, cur := none }

/-! ### proof -/

/-- values that are not removed -/
def Keep (active : Fin n → Bool) (sidx : List (Fin n)) (L : Fin n → List α) (x : α) : Prop :=
  ∀ j ∈ sidx, active j = true → x ∉ L j

instance (active : Fin n → Bool) (sidx : List (Fin n)) (L : Fin n → List α) (x : α) :
    Decidable (Keep active sidx L x) := by unfold Keep; infer_instance

/-- the followers used (`idx`, if active) stand on cursors that agree with `L` on `m` -/
def Foll (cops : ScanOps S α) (active : Fin n → Bool) (idx : List (Fin n)) (L : Fin n → List α)
    (followers : Fin n → Option S) (m : List α) : Prop :=
  ∀ j ∈ idx, active j = true → ∃ f c, followers j = some f ∧ Behaves cops f c ∧ Asc c.rem ∧
    ∀ x ∈ m, x ∈ L j ↔ x ∈ c.rem

theorem Foll.mono {cops : ScanOps S α} {active : Fin n → Bool} {idx : List (Fin n)}
    {L : Fin n → List α} {fs : Fin n → Option S} {m m' : List α}
    (h : Foll cops active idx L fs m) (hm : ∀ x ∈ m', x ∈ m) : Foll cops active idx L fs m' := by
  intro j hj ha
  obtain ⟨f, c, h1, h2, h3, h4⟩ := h j hj ha
  exact ⟨f, c, h1, h2, h3, fun x hx => h4 x (hm x hx)⟩

/-- seeking one follower to a lower bound of `m` -/
theorem Foll.seek {cops : ScanOps S α} {active : Fin n → Bool} {idx : List (Fin n)}
    {L : Fin n → List α} {fs : Fin n → Option S} {v : α} {t : List α}
    (h : Foll cops active idx L fs (v :: t)) (hasc : Asc (v :: t)) {i : Fin n} (hi : i ∈ idx)
    (ha : active i = true) :
    ∃ f f' o, fs i = some f ∧ cops.seek f v = some (o, f') ∧ (o = some v ↔ v ∈ L i) ∧
      cops.current f' = o ∧ Foll cops active idx L (Function.update fs i (some f')) (v :: t) := by
  obtain ⟨f, c, h1, h2, h3, h4⟩ := h i hi ha
  obtain ⟨f', h5, h6⟩ := h2.seek v
  refine ⟨f, f', _, h1, h5, ?_, h6.current, ?_⟩
  · rw [h4 v (by simp)]
    constructor
    · intro e
      obtain ⟨t', ht', -⟩ := Cur.seek_current_some h3 e
      exact ((Cur.mem_seek h3 v v).mp (by rw [ht']; simp [Cur.rem])).1
    · intro hv
      have hv' := (Cur.mem_seek h3 v v).mpr ⟨hv, le_rfl⟩
      have hasc' := Cur.seek_asc h3 v
      rw [Cur.seek_isAt, Cur.at_current]
      cases hl : (c.seek v).rem with
      | nil => rw [hl] at hv'; simp at hv'
      | cons b tb =>
        rw [hl] at hv' hasc'
        have hb := ((Cur.mem_seek h3 v b).mp (by rw [hl]; simp)).2
        rcases List.mem_cons.mp hv' with e | e
        · simp [e]
        · exact absurd ((asc_cons.mp hasc').1 v e) (not_lt.mpr hb)
  · intro j hj haj
    by_cases e : j = i
    · subst e
      refine ⟨f', c.seek v, by simp, h6, Cur.seek_asc h3 v, fun x hx => ?_⟩
      rw [Cur.mem_seek h3, h4 x hx]
      have : v ≤ x := by
        rcases List.mem_cons.mp hx with e | e
        · rw [e]
        · exact ((asc_cons.mp hasc).1 x e).le
      simp [this]
    · rw [Function.update_of_ne e]
      exact h j hj haj

theorem subtractPass_spec (cops : ScanOps S α) (active : Fin n → Bool) (sidx : List (Fin n))
    (fidx : List (Fin n)) (L : Fin n → List α) (is : List (Fin n)) (his : ∀ j ∈ is, j ∈ sidx)
    (st : SubState n S) (v : α) (flag : Bool) (t : List α)
    (hmain : Behaves cops st.main (.at (v :: t))) (hasc : Asc (v :: t))
    (hf : Foll cops active (sidx ++ fidx) L st.followers (v :: t)) :
    ∃ st' r m', subtractPass cops active is st v flag = some (st', r) ∧
      Behaves cops st'.main (.at m') ∧ Asc m' ∧
      Foll cops active (sidx ++ fidx) L st'.followers m' ∧
      m'.filter (fun x => Keep active sidx L x) = (v :: t).filter (fun x => Keep active sidx L x) ∧
      (∀ j, j ∈ is → r.isSome → st'.equal j = false) ∧
      (∀ j, j ∉ is → st'.equal j = st.equal j) ∧
      (r = none → m' = []) ∧
      (∀ v' fl, r = some (v', fl) → ∃ t', m' = v' :: t' ∧
        ((fl = flag ∧ v' = v ∧ t' = t ∧ ∀ j ∈ is, active j = true → v ∉ L j) ∨
         (fl = true ∧ t'.length < t.length))) := by
  induction is generalizing st v flag t with
  | nil =>
    exact ⟨st, _, v :: t, rfl, hmain, hasc, hf, rfl, by simp, by simp, by simp, by simp⟩
  | cons i is ih =>
    have hi : i ∈ sidx := his i (by simp)
    have his' : ∀ j ∈ is, j ∈ sidx := fun j hj => his j (by simp [hj])
    -- `equal_values` of later states
    have heq1 : ∀ (st2 : SubState n S) (e0 : Fin n → Bool) (r : Option (α × Bool)),
        (∀ j, j ∈ is → r.isSome → st2.equal j = false) →
        (∀ j, j ∉ is → st2.equal j = Function.update e0 i false j) →
        (∀ j, j ∈ i :: is → r.isSome → st2.equal j = false) ∧
        (∀ j, j ∉ i :: is → st2.equal j = e0 j) := by
      intro st2 e0 r h1 h2
      constructor
      · intro j hj hr
        by_cases hji : j ∈ is
        · exact h1 j hji hr
        · rcases List.mem_cons.mp hj with e | e
          · subst e; rw [h2 j hji]; simp
          · exact absurd e hji
      · intro j hj
        simp only [List.mem_cons, not_or] at hj
        rw [h2 j hj.2, Function.update_of_ne hj.1]
    rw [subtractPass]
    by_cases ha : active i = true
    · rw [if_pos ha]
      obtain ⟨f, f', o, e1, e2, e3, e3', e4⟩ := hf.seek hasc (i := i) (by simp [hi]) ha
      rw [e1]
      simp only [Option.bind_some, e2]
      by_cases ho : o = some v
      · rw [if_pos ho]
        have hvL := e3.mp ho
        obtain ⟨m2, g1, g2⟩ := hmain.next
        simp only [Cur.next, List.tail_cons, Cur.current] at g1 g2
        rw [g1]
        simp only [Option.bind_some]
        have hkeep : ¬ Keep active sidx L v := fun h => h i hi ha hvL
        cases t with
        | nil =>
          refine ⟨_, none, [], rfl, g2, List.Pairwise.nil, e4.mono (by simp), by simp [hkeep],
            by simp, ?_, by simp, by simp⟩
          intro j hj
          simp only [List.mem_cons, not_or] at hj
          simp [Function.update_of_ne hj.1]
        | cons v' t =>
          simp only [List.head?_cons]
          obtain ⟨st', r, m', h1, h2, h3, h4, h5, h6, h7, h8, h9⟩ :=
            ih his' ⟨m2, Function.update st.followers i (some f'), Function.update st.equal i false⟩
              v' true t g2 (asc_cons.mp hasc).2
              (e4.mono (fun x hx => List.mem_cons_of_mem _ hx))
          obtain ⟨q1, q2⟩ := heq1 st' st.equal r h6 h7
          refine ⟨st', r, m', h1, h2, h3, h4, ?_, q1, q2, h8, ?_⟩
          · rw [h5]; simp [List.filter_cons (x := v), hkeep]
          · intro w fl hw
            obtain ⟨t', ht', hh⟩ := h9 w fl hw
            refine ⟨t', ht', Or.inr ?_⟩
            rcases hh with ⟨a1, -, a3, -⟩ | ⟨a1, a2⟩
            · exact ⟨a1, by rw [a3]; simp⟩
            · exact ⟨a1, by simp; omega⟩
      · rw [if_neg ho]
        have hvL : v ∉ L i := fun h => ho (e3.mpr h)
        obtain ⟨st', r, m', h1, h2, h3, h4, h5, h6, h7, h8, h9⟩ :=
          ih his' ⟨st.main, Function.update st.followers i (some f'),
              Function.update st.equal i false⟩ v flag t hmain hasc e4
        obtain ⟨q1, q2⟩ := heq1 st' st.equal r h6 h7
        refine ⟨st', r, m', h1, h2, h3, h4, h5, q1, q2, h8, ?_⟩
        intro w fl hw
        obtain ⟨t', ht', hh⟩ := h9 w fl hw
        refine ⟨t', ht', ?_⟩
        rcases hh with ⟨a1, a2, a3, a4⟩ | hh
        · refine Or.inl ⟨a1, a2, a3, fun j hj => ?_⟩
          rcases List.mem_cons.mp hj with e | e
          · subst e; exact fun _ => hvL
          · exact a4 j e
        · exact Or.inr hh
    · rw [if_neg ha]
      obtain ⟨st', r, m', h1, h2, h3, h4, h5, h6, h7, h8, h9⟩ :=
        ih his' ⟨st.main, st.followers, Function.update st.equal i false⟩ v flag t hmain hasc hf
      obtain ⟨q1, q2⟩ := heq1 st' st.equal r h6 h7
      refine ⟨st', r, m', h1, h2, h3, h4, h5, q1, q2, h8, ?_⟩
      intro w fl hw
      obtain ⟨t', ht', hh⟩ := h9 w fl hw
      refine ⟨t', ht', ?_⟩
      rcases hh with ⟨a1, a2, a3, a4⟩ | hh
      · refine Or.inl ⟨a1, a2, a3, fun j hj haj => ?_⟩
        rcases List.mem_cons.mp hj with e | e
        · subst e; exact absurd haj ha
        · exact a4 j e haj
      · exact Or.inr hh

theorem subtractLoop_spec (cops : ScanOps S α) (active : Fin n → Bool) (sidx : List (Fin n))
    (fidx : List (Fin n)) (L : Fin n → List α) (st : SubState n S) (v : α) (t : List α)
    (hmain : Behaves cops st.main (.at (v :: t))) (hasc : Asc (v :: t))
    (hf : Foll cops active (sidx ++ fidx) L st.followers (v :: t)) :
    ∃ st' r m', subtractLoop cops active sidx st v = some (st', r) ∧
      Behaves cops st'.main (.at m') ∧ Asc m' ∧
      Foll cops active (sidx ++ fidx) L st'.followers m' ∧
      m'.filter (fun x => Keep active sidx L x) = (v :: t).filter (fun x => Keep active sidx L x) ∧
      (∀ j, j ∈ sidx → r.isSome → st'.equal j = false) ∧
      (∀ j, j ∉ sidx → st'.equal j = st.equal j) ∧
      r = m'.head? ∧ (∀ w, r = some w → Keep active sidx L w) := by
  obtain ⟨N, hN⟩ : ∃ N, N = t.length := ⟨_, rfl⟩
  induction N using Nat.strong_induction_on generalizing st v t with
  | _ N ih =>
  obtain ⟨st', r, m', h1, h2, h3, h4, h5, h6, h7, h8, h9⟩ :=
    subtractPass_spec cops active sidx fidx L sidx (fun _ h => h) st v false t hmain hasc hf
  rw [subtractLoop, h1]
  simp only [Option.bind_eq_bind, Option.bind_some]
  cases r with
  | none =>
    have := h8 rfl
    subst this
    exact ⟨st', none, [], rfl, h2, h3, h4, h5, by simp, h7, rfl, by simp⟩
  | some q =>
    obtain ⟨w, fl⟩ := q
    obtain ⟨t', ht', hh⟩ := h9 w fl rfl
    subst ht'
    rcases hh with ⟨rfl, rfl, rfl, a4⟩ | ⟨rfl, a2⟩
    · refine ⟨st', some w, w :: t', rfl, h2, h3, h4, h5, fun j hj _ => h6 j hj rfl, h7, rfl, ?_⟩
      intro w' hw'
      cases hw'
      exact a4
    · simp only [if_true]
      obtain ⟨st2, r2, m2, g1, g2, g3, g4, g5, g6, g7, g8, g9⟩ :=
        ih t'.length (by omega) st' w t' h2 h3 h4 rfl
      refine ⟨st2, r2, m2, g1, g2, g3, g4, g5.trans h5, g6, fun j hj => ?_, g8, g9⟩
      rw [g7 j hj, h7 j hj]

theorem followPass_spec (cops : ScanOps S α) (active : Fin n → Bool) (idx : List (Fin n))
    (L : Fin n → List α) (is : List (Fin n)) (his : ∀ j ∈ is, j ∈ idx) (hnd : is.Nodup)
    (st : SubState n S) (v : α) (t : List α) (hasc : Asc (v :: t))
    (hf : Foll cops active idx L st.followers (v :: t)) :
    ∃ st', followPass cops active v is st = some st' ∧ st'.main = st.main ∧
      Foll cops active idx L st'.followers (v :: t) ∧
      (∀ j, j ∈ is → active j = true → st'.equal j = (st.equal j && decide (v ∈ L j))) ∧
      (∀ j, ¬ (j ∈ is ∧ active j = true) → st'.equal j = st.equal j) ∧
      (∀ j, j ∈ is → active j = true → v ∈ L j → ∃ f, st'.followers j = some f ∧ cops.current f = some v) ∧
      (∀ j, j ∉ is → st'.followers j = st.followers j) := by
  induction is generalizing st with
  | nil => exact ⟨st, rfl, rfl, hf, by simp, by simp, by simp, by simp⟩
  | cons i is ih =>
    have his' : ∀ j ∈ is, j ∈ idx := fun j hj => his j (by simp [hj])
    obtain ⟨hni, hnd'⟩ := List.nodup_cons.mp hnd
    rw [followPass]
    by_cases ha : active i = true
    · rw [if_pos ha]
      obtain ⟨f, f', o, e1, e2, e3, e3', e4⟩ := hf.seek hasc (his i (by simp)) ha
      rw [e1]
      simp only [Option.bind_some, e2]
      obtain ⟨st', h1, h2, h3, h4, h5, h6, h7⟩ := ih his' hnd'
        ⟨st.main, Function.update st.followers i (some f'),
          if o = some v then st.equal else Function.update st.equal i false⟩ e4
      refine ⟨st', h1, h2, h3, ?_, ?_, ?_, ?_⟩
      · intro j hj haj
        rcases List.mem_cons.mp hj with e | e
        · subst e
          rw [h5 j (fun h => hni h.1)]
          by_cases ho : o = some v
          · simp [ho, e3.mp ho]
          · have : v ∉ L j := fun h => ho (e3.mpr h)
            simp [ho, this]
        · rw [h4 j e haj]
          have : j ≠ i := fun e' => hni (e' ▸ e)
          by_cases ho : o = some v
          · simp [ho]
          · simp [ho, Function.update_of_ne this]
      · intro j hj
        have h6 : ¬ (j ∈ is ∧ active j = true) := fun h => hj ⟨by simp [h.1], h.2⟩
        have h7 : j ≠ i := fun e => hj ⟨by simp [e], by rw [e]; exact ha⟩
        rw [h5 j h6]
        by_cases ho : o = some v
        · simp [ho]
        · simp [ho, Function.update_of_ne h7]
      · intro j hj haj hv
        rcases List.mem_cons.mp hj with e | e
        · subst e
          exact ⟨f', by rw [h7 j hni]; simp, by rw [e3', e3.mpr hv]⟩
        · exact h6 j e haj hv
      · intro j hj
        simp only [List.mem_cons, not_or] at hj
        rw [h7 j hj.2]
        simp [Function.update_of_ne hj.1]
    · rw [if_neg ha]
      obtain ⟨st', h1, h2, h3, h4, h5, h6, h7⟩ := ih his' hnd' st hf
      refine ⟨st', h1, h2, h3, ?_, ?_, ?_, fun j hj => h7 j (fun h => hj (by simp [h]))⟩
      · intro j hj haj
        rcases List.mem_cons.mp hj with e | e
        · subst e; exact absurd haj ha
        · exact h4 j e haj
      · intro j hj
        exact h5 j (fun h => hj ⟨by simp [h.1], h.2⟩)
      · intro j hj haj hv
        rcases List.mem_cons.mp hj with e | e
        · subst e; exact absurd haj ha
        · exact h6 j e haj hv

/-- configuration of the operator that does not change -/
structure Cfg (n : Nat) (α : Type) where
  sidx : List (Fin n)
  fidx : List (Fin n)
  active : Fin n → Bool
  L : Fin n → List α

/-- simulation relation -/
structure Sim (cops : ScanOps S α) (g : Cfg n α) (s : SubScan n S α) (c : Cur α) : Prop where
  cfg : s.subtractIdx = g.sidx ∧ s.followIdx = g.fidx ∧ s.active = g.active
  nodup : g.fidx.Nodup
  disj : ∀ j ∈ g.fidx, j ∉ g.sidx
  cur : s.cur = c.current
  ex : ∃ cm : Cur α, Behaves cops s.main cm ∧ Asc cm.rem ∧
    Foll cops g.active (g.sidx ++ g.fidx) g.L s.followers cm.rem ∧
    c.rem = cm.rem.filter (fun x => Keep g.active g.sidx g.L x) ∧
    (∀ l, c = .fresh l → ∃ m, cm = .fresh m) ∧
    (∀ l, c = .at l → (∃ m, cm = .at m ∧ m.head? = l.head?) ∧
      ∀ v, l.head? = some v → (∀ j ∈ g.sidx, s.equal j = false) ∧
        (∀ j ∈ g.fidx, s.equal j = (g.active j && decide (v ∈ g.L j))) ∧
        (∀ j, j ∉ g.sidx → j ∉ g.fidx → s.equal j = g.active j) ∧
        (∀ j ∈ g.fidx, g.active j = true → v ∈ g.L j →
          ∃ f, s.followers j = some f ∧ cops.current f = some v))

theorem continueWith_spec (cops : ScanOps S α) (g : Cfg n α) (s : SubScan n S α)
    (hcfg : s.subtractIdx = g.sidx ∧ s.followIdx = g.fidx ∧ s.active = g.active)
    (hnd : g.fidx.Nodup) (hdis : ∀ j ∈ g.fidx, j ∉ g.sidx)
    (m : List α) (s' : S) (hb : Behaves cops s' (.at m)) (ha : Asc m)
    (hf : Foll cops g.active (g.sidx ++ g.fidx) g.L s.followers m) (l : List α)
    (hl : l = m.filter (fun x => Keep g.active g.sidx g.L x)) :
    ∃ s'', continueWith cops s (m.head?, s') = some ((Cur.at l).current, s'') ∧
      Sim cops g s'' (.at l) := by
  subst hl
  obtain ⟨c1, c2, c3⟩ := hcfg
  cases m with
  | nil =>
    refine ⟨_, rfl, ⟨⟨c1, c2, c3⟩, hnd, hdis, rfl, .at [], hb, ha, hf, rfl, by simp, ?_⟩⟩
    intro l e
    injection e with e
    subst e
    exact ⟨⟨[], rfl, rfl⟩, by simp⟩
  | cons v t =>
    simp only [continueWith, List.head?_cons, moveFollow, c1, c2, c3]
    obtain ⟨st', r, m', h1, h2, h3, h4, h5, h6, h7, h8, h9⟩ :=
      subtractLoop_spec cops g.active g.sidx g.fidx g.L
        { main := s', followers := s.followers, equal := g.active } v t hb ha hf
    rw [h1]
    simp only [Option.bind_some]
    cases m' with
    | nil =>
      simp at h8
      subst h8
      simp only [Option.map_some]
      rw [← h5]
      refine ⟨_, rfl, ⟨⟨rfl, rfl, rfl⟩, hnd, hdis, rfl, .at [], h2, h3, h4, rfl, by simp, ?_⟩⟩
      intro l e
      injection e with e
      subst e
      exact ⟨⟨[], rfl, rfl⟩, by simp⟩
    | cons w t' =>
      simp at h8
      subst h8
      obtain ⟨st2, g1, g2, g3, g4, g5, g6, g7⟩ := followPass_spec cops g.active (g.sidx ++ g.fidx) g.L g.fidx
        (fun j hj => by simp [hj]) hnd st' w t' h3 h4
      simp only [g1, Option.map_some]
      have hk := h9 w rfl
      have hhead : ((v :: t).filter (fun x => Keep g.active g.sidx g.L x)).head? = some w := by
        rw [← h5]; simp [hk]
      rw [Cur.at_current, hhead]
      refine ⟨_, rfl, ⟨⟨rfl, rfl, rfl⟩, hnd, hdis, hhead.symm, .at (w :: t'), by rw [g2]; exact h2, h3,
        g3, h5.symm, by simp, ?_⟩⟩
      intro l e
      injection e with e
      subst e
      refine ⟨⟨w :: t', rfl, by rw [hhead]; rfl⟩, ?_⟩
      intro v' hv'
      rw [hhead] at hv'
      cases hv'
      refine ⟨?_, ?_, ?_, g6⟩
      · intro j hj
        have : ¬ (j ∈ g.fidx ∧ g.active j = true) := fun h => hdis j h.1 hj
        change st2.equal j = false
        rw [g5 j this]
        exact h6 j hj rfl
      · intro j hj
        have e0 := h7 j (hdis j hj)
        change st2.equal j = _
        by_cases haj : g.active j = true
        · rw [g4 j hj haj, e0]
        · rw [g5 j (fun h => haj h.2), e0]
          simp [haj]
      · intro j h1 h2
        change st2.equal j = _
        rw [g5 j (fun h => h2 h.1), h7 j h1]

theorem sim_next (cops : ScanOps S α) (g : Cfg n α) (s : SubScan n S α) (c : Cur α)
    (h : Sim cops g s c) :
    ∃ s', (ops cops).next s = some (c.next.current, s') ∧ Sim cops g s' c.next := by
  obtain ⟨cm, hb, ha, hf, hc, hfr, hat⟩ := h.ex
  obtain ⟨m2, g1, g2⟩ := hb.next
  simp only [ops, g1, Option.bind_some]
  cases c with
  | fresh l =>
    obtain ⟨m, rfl⟩ := hfr l rfl
    exact continueWith_spec cops g s h.cfg h.nodup h.disj m m2 g2 ha hf l hc
  | «at» l =>
    obtain ⟨⟨m, rfl, hm⟩, -⟩ := hat l rfl
    refine continueWith_spec cops g s h.cfg h.nodup h.disj m.tail m2 g2 ha.tail
      (hf.mono fun x hx => List.mem_of_mem_tail hx) l.tail ?_
    simp only [Cur.rem] at hc
    cases m with
    | nil => subst hc; rfl
    | cons v t =>
      cases l with
      | nil => simp at hm
      | cons w l =>
        simp at hm
        subst hm
        rw [List.filter_cons] at hc
        split at hc
        · simpa using hc
        · next hk =>
          have : v ∈ t := (List.mem_filter.mp (by rw [← hc]; simp)).1
          exact absurd ((asc_cons.mp ha).1 v this) (lt_irrefl _)

theorem sim_seek (cops : ScanOps S α) (g : Cfg n α) (s : SubScan n S α) (c : Cur α) (v : α)
    (h : Sim cops g s c) :
    ∃ s', (ops cops).seek s v = some ((c.seek v).current, s') ∧ Sim cops g s' (c.seek v) := by
  obtain ⟨cm, hb, ha, hf, hc, hfr, hat⟩ := h.ex
  obtain ⟨m2, g1, g2⟩ := hb.seek v
  simp only [ops, g1, Option.bind_some]
  have hca : Asc c.rem := by rw [hc]; exact ha.filter _
  rw [Cur.seek_isAt c v, Cur.seek_isAt cm v] at *
  refine continueWith_spec cops g s h.cfg h.nodup h.disj _ m2 g2 (Cur.seek_asc ha v)
    (hf.mono fun x hx => ((Cur.mem_seek ha v x).mp hx).1) _ ?_
  rw [Cur.seek_rem c hca, Cur.seek_rem cm ha, hc, List.filter_filter, List.filter_filter]
  exact List.filter_congr fun x _ => Bool.and_comm _ _

theorem sim_new (cops : ScanOps S α) (g : Cfg n α) (main : S) (followers : Fin n → Option S)
    (equal : Fin n → Bool) (M : List α)
    (hnd : g.fidx.Nodup) (hdis : ∀ j ∈ g.fidx, j ∉ g.sidx)
    (hb : Behaves cops main (.fresh M)) (ha : Asc M)
    (hf : ∀ j ∈ g.sidx ++ g.fidx, g.active j = true → ∃ f, followers j = some f ∧
      Behaves cops f (.fresh (g.L j)) ∧ Asc (g.L j)) :
    Sim cops g (new main followers g.sidx g.fidx g.active equal)
      (.fresh (M.filter fun x => Keep g.active g.sidx g.L x)) := by
  refine ⟨⟨rfl, rfl, rfl⟩, hnd, hdis, rfl, .fresh M, hb, ha, ?_, rfl, fun _ _ => ⟨M, rfl⟩, by simp⟩
  intro j hj haj
  obtain ⟨f, h1, h2, h3⟩ := hf j hj haj
  exact ⟨f, _, h1, h2, h3, fun x _ => Iff.rfl⟩

end SubScan
end Verif
