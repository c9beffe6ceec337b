import Verif.PropColumnOps

/-!
# Column operators over simulated inputs

The proofs about column operators (C03–C06) say what the operators do when the inputs behave like
cursors.  In a trie operator the inputs are layers of other tries: their states carry more than one
column.  Here it is shown that running an operator on such inputs is the same as running it on
specification cursors, for any relation between input states and cursors that the calls respect.
-/

set_option linter.unusedSimpArgs false
set_option linter.unusedSectionVars false
set_option linter.unusedVariables false

namespace Verif

/-- specification cursors as an implementation -/
def curOps {β : Type} [LinearOrder β] : ScanOps (Cur β) β where
  next c := some (c.next.current, c.next)
  seek c v := some ((c.seek v).current, c.seek v)
  current := Cur.current

theorem behaves_cur {β : Type} [LinearOrder β] (c : Cur β) : Behaves curOps c c :=
  Behaves.of_sim (fun s c => s = c) (fun _ _ h => by rw [h]; rfl)
    (fun _ _ h => by subst h; exact ⟨_, rfl, rfl⟩) (fun _ _ _ h => by subst h; exact ⟨_, rfl, rfl⟩) rfl

/-- `current` respects the relation `Q`. -/
def CurOn {S β : Type} (ops : ScanOps S β) (Q : S → Cur β → Prop) : Prop :=
  ∀ s c, Q s c → ops.current s = c.current

/-- `next` respects the relation `Q`. -/
structure SimOn {S β : Type} (ops : ScanOps S β) (Q : S → Cur β → Prop) : Prop where
  next : ∀ s c, Q s c → ∃ s', ops.next s = some (c.next.current, s') ∧ Q s' c.next

/-- `seek` respects the relation `Q`. -/
def SeekOn {S β : Type} [LinearOrder β] (ops : ScanOps S β) (Q : S → Cur β → Prop) : Prop :=
  ∀ s c v, Q s c → ∃ s', ops.seek s v = some ((c.seek v).current, s') ∧ Q s' (c.seek v)

variable {n : Nat} {S β : Type} [LinearOrder β]

theorem update_rel {ι : Type} [DecidableEq ι] {Q : ι → S → Cur β → Prop} {scans : ι → S} {cs : ι → Cur β}
    (h : ∀ j, Q j (scans j) (cs j)) {i : ι} {s : S} {c : Cur β} (hi : Q i s c) :
    ∀ j, Q j (Function.update scans i s j) (Function.update cs i c j) := by
  intro j
  by_cases e : j = i
  · subst e; simpa using hi
  · simpa [Function.update_of_ne e] using h j

/-! ## Join -/

namespace JoinScan

theorem param_loop {cops : ScanOps S β} {Q : Fin n → S → Cur β → Prop}
    (hK : ∀ j, SeekOn cops (Q j)) {cs : Fin n → Cur β} {active : Fin n} {cm : β} {m : Nat}
    {r : Option β × (Fin n → Cur β) × Fin n} (h : nextLoop curOps cs active cm m = some r)
    {scans : Fin n → S} (hQ : ∀ j, Q j (scans j) (cs j)) :
    ∃ scans', nextLoop cops scans active cm m = some (r.1, scans', r.2.2) ∧
      ∀ j, Q j (scans' j) (r.2.1 j) := by
  refine nextLoop.partial_correctness (n := n) (S := Cur β) (α := β) curOps
    (fun cs active cm m r => ∀ scans : Fin n → S, (∀ j, Q j (scans j) (cs j)) →
      ∃ scans', nextLoop cops scans active cm m = some (r.1, scans', r.2.2) ∧
        ∀ j, Q j (scans' j) (r.2.1 j)) ?_ cs active cm m r h scans hQ
  intro f ih cs active cm m r h scans hQ
  rw [nextLoop]
  split at h
  · next e =>
    simp only [Option.some.injEq] at h
    subst h
    exact ⟨scans, by rw [if_pos e], hQ⟩
  · next e =>
    rw [if_neg e]
    obtain ⟨s', hs, hs'⟩ := hK (succIdx active) _ _ cm (hQ (succIdx active))
    simp only [hs, curOps, Option.bind_eq_bind, Option.bind_some] at h ⊢
    have hu := update_rel hQ hs'
    cases hc : ((cs (succIdx active)).seek cm).current with
    | none =>
      simp only [hc, Option.some.injEq] at h ⊢
      subst h
      exact ⟨_, rfl, hu⟩
    | some v =>
      simp only [hc] at h ⊢
      by_cases e : v = cm
      · rw [if_pos e] at h ⊢
        exact ih _ _ _ _ _ h _ hu
      · rw [if_neg e] at h ⊢
        exact ih _ _ _ _ _ h _ hu

theorem param_continue {cops : ScanOps S β} {Q : Fin n → S → Cur β → Prop}
    (hK : ∀ j, SeekOn cops (Q j)) {cs : Fin n → Cur β} {active : Fin n} {cur o : Option β}
    {st : JoinScan n (Cur β) β} {ca : Cur β} {s' : S}
    (h : continueWith curOps ⟨cs, active, cur⟩ (ca.current, ca) = some (o, st))
    {scans : Fin n → S} (hQ : ∀ j, Q j (scans j) (cs j)) (hs : Q active s' ca) :
    ∃ scans', continueWith cops ⟨scans, active, cur⟩ (ca.current, s') =
        some (o, ⟨scans', st.active, st.cur⟩) ∧ ∀ j, Q j (scans' j) (st.scans j) := by
  unfold continueWith at h ⊢
  have hu := update_rel hQ hs
  cases hc : ca.current with
  | none =>
    simp only [hc, Option.some.injEq, Prod.mk.injEq] at h ⊢
    obtain ⟨h1, h2⟩ := h
    subst h1 h2
    exact ⟨_, ⟨rfl, rfl⟩, hu⟩
  | some v =>
    simp only [hc] at h ⊢
    obtain ⟨r, hr, h⟩ := Option.bind_eq_some_iff.mp h
    obtain ⟨sc, h1, h2⟩ := param_loop hK hr hu
    simp only [Option.some.injEq, Prod.mk.injEq] at h
    obtain ⟨e1, e2⟩ := h
    subst e1 e2
    exact ⟨sc, by rw [h1]; rfl, h2⟩

theorem param_next {cops : ScanOps S β} {Q : Fin n → S → Cur β → Prop}
    (hN : ∀ j, SimOn cops (Q j)) (hK : ∀ j, SeekOn cops (Q j)) {cs : Fin n → Cur β}
    {active : Fin n} {cur o : Option β} {st : JoinScan n (Cur β) β}
    (h : (ops curOps).next ⟨cs, active, cur⟩ = some (o, st))
    {scans : Fin n → S} (hQ : ∀ j, Q j (scans j) (cs j)) :
    ∃ scans', (ops cops).next ⟨scans, active, cur⟩ = some (o, ⟨scans', st.active, st.cur⟩) ∧
      ∀ j, Q j (scans' j) (st.scans j) := by
  obtain ⟨s', h1, h2⟩ := (hN active).next _ _ (hQ active)
  obtain ⟨sc, h3, h4⟩ := param_continue hK (cur := cur) (show continueWith curOps ⟨cs, active, cur⟩
    ((cs active).next.current, (cs active).next) = some (o, st) from h) hQ h2
  exact ⟨sc, by simpa only [ops, h1, Option.bind_some] using h3, h4⟩

theorem param_seek {cops : ScanOps S β} {Q : Fin n → S → Cur β → Prop}
    (hK : ∀ j, SeekOn cops (Q j)) {cs : Fin n → Cur β}
    {active : Fin n} {cur o : Option β} {st : JoinScan n (Cur β) β} {v : β}
    (h : (ops curOps).seek ⟨cs, active, cur⟩ v = some (o, st))
    {scans : Fin n → S} (hQ : ∀ j, Q j (scans j) (cs j)) :
    ∃ scans', (ops cops).seek ⟨scans, active, cur⟩ v = some (o, ⟨scans', st.active, st.cur⟩) ∧
      ∀ j, Q j (scans' j) (st.scans j) := by
  obtain ⟨s', h1, h2⟩ := hK active _ _ v (hQ active)
  obtain ⟨sc, h3, h4⟩ := param_continue hK (cur := cur) (show continueWith curOps ⟨cs, active, cur⟩
    (((cs active).seek v).current, (cs active).seek v) = some (o, st) from h) hQ h2
  exact ⟨sc, by simpa only [ops, h1, Option.bind_some] using h3, h4⟩

end JoinScan

/-! ## Union -/

namespace UnionScan

theorem param_pass {Q : Fin n → S → Cur β → Prop} {probe : S → Option (Option β × S)}
    {probeC : Cur β → Option (Option β × Cur β)} (act : List (Fin n))
    (hp : ∀ i ∈ act, ∀ s c, Q i s c → ∀ o c', probeC c = some (o, c') →
      ∃ s', probe s = some (o, s') ∧ Q i s' c') :
    ∀ {scans : Fin n → S} {cs : Fin n → Cur β}, (∀ j, Q j (scans j) (cs j)) →
    ∀ {ns : Option β} {sm : List (Fin n)} {r : (Fin n → Cur β) × Option β × List (Fin n)},
      pass probeC act cs ns sm = some r →
      ∃ scans', pass probe act scans ns sm = some (scans', r.2) ∧ ∀ j, Q j (scans' j) (r.1 j) := by
  induction act with
  | nil =>
    intro scans cs hQ ns sm r h
    simp only [pass, Option.some.injEq] at h
    subst h
    exact ⟨scans, rfl, hQ⟩
  | cons i act ih =>
    intro scans cs hQ ns sm r h
    simp only [pass] at h ⊢
    obtain ⟨⟨o, c'⟩, h1, h⟩ := Option.bind_eq_some_iff.mp h
    obtain ⟨s', h2, h3⟩ := hp i (by simp) _ _ (hQ i) _ _ h1
    rw [h2, Option.bind_some]
    exact ih (fun j hj => hp j (List.mem_cons_of_mem _ hj)) (update_rel hQ h3) h

theorem param_next {cops : ScanOps S β} {Q : Fin n → S → Cur β → Prop} {act : List (Fin n)}
    (hN : ∀ i ∈ act, SimOn cops (Q i)) (hC : ∀ i ∈ act, CurOn cops (Q i)) {cs : Fin n → Cur β} {sm : List (Fin n)} {cur o : Option β}
    {st : UnionScan n (Cur β) β} (h : (ops curOps).next ⟨cs, act, sm, cur⟩ = some (o, st))
    {scans : Fin n → S} (hQ : ∀ j, Q j (scans j) (cs j)) :
    ∃ scans', (ops cops).next ⟨scans, act, sm, cur⟩ = some (o, ⟨scans', act, st.smallest, st.cur⟩) ∧
      st.active = act ∧ ∀ j, Q j (scans' j) (st.scans j) := by
  simp only [ops] at h ⊢
  obtain ⟨r, h1, h2⟩ := Option.map_eq_some_iff.mp h
  obtain ⟨sc, h3, h4⟩ := param_pass (Q := Q) (probe := nextProbe cops cur) act (by
    intro i hi s c hq o c' hc
    unfold nextProbe at hc ⊢
    rw [hC i hi _ _ hq]
    by_cases e : c.current = cur
    · rw [if_pos (show curOps.current c = cur from e)] at hc
      obtain ⟨s', e1, e2⟩ := (hN i hi).next _ _ hq
      simp only [curOps, Option.some.injEq, Prod.mk.injEq] at hc
      obtain ⟨rfl, rfl⟩ := hc
      exact ⟨s', by rw [if_pos e]; exact e1, e2⟩
    · rw [if_neg (show ¬ curOps.current c = cur from e)] at hc
      simp only [curOps, Option.some.injEq, Prod.mk.injEq] at hc
      obtain ⟨rfl, rfl⟩ := hc
      exact ⟨s, by rw [if_neg e], hq⟩) hQ h1
  simp only [finish, Prod.mk.injEq] at h2
  obtain ⟨rfl, rfl⟩ := h2
  exact ⟨sc, by rw [h3]; rfl, rfl, h4⟩

theorem param_seek {cops : ScanOps S β} {Q : Fin n → S → Cur β → Prop} {act : List (Fin n)}
    (hK : ∀ i ∈ act, SeekOn cops (Q i)) {cs : Fin n → Cur β} {sm : List (Fin n)} {cur o : Option β}
    {st : UnionScan n (Cur β) β} {v : β} (h : (ops curOps).seek ⟨cs, act, sm, cur⟩ v = some (o, st))
    {scans : Fin n → S} (hQ : ∀ j, Q j (scans j) (cs j)) :
    ∃ scans', (ops cops).seek ⟨scans, act, sm, cur⟩ v = some (o, ⟨scans', act, st.smallest, st.cur⟩) ∧
      st.active = act ∧ ∀ j, Q j (scans' j) (st.scans j) := by
  simp only [ops] at h ⊢
  obtain ⟨r, h1, h2⟩ := Option.map_eq_some_iff.mp h
  obtain ⟨sc, h3, h4⟩ := param_pass (Q := Q) (probe := fun c => cops.seek c v) act (by
    intro i hi s c hq o c' hc
    obtain ⟨s', e1, e2⟩ := hK i hi _ _ v hq
    simp only [curOps, Option.some.injEq, Prod.mk.injEq] at hc
    obtain ⟨rfl, rfl⟩ := hc
    exact ⟨s', e1, e2⟩) hQ h1
  simp only [finish, Prod.mk.injEq] at h2
  obtain ⟨rfl, rfl⟩ := h2
  exact ⟨sc, by rw [h3]; rfl, rfl, h4⟩

end UnionScan

/-! ## Subtract -/

namespace SubScan

/-- states and cursors of the followers correspond -/
structure Rel (Q0 : S → Cur β → Prop) (Q : Fin n → S → Cur β → Prop) (st : SubState n S)
    (ct : SubState n (Cur β)) : Prop where
  main : Q0 st.main ct.main
  fsome : ∀ j c, ct.followers j = some c → ∃ s, st.followers j = some s ∧ Q j s c
  fnone : ∀ j, ct.followers j = none → st.followers j = none
  equal : st.equal = ct.equal

variable {cops : ScanOps S β} {Q0 : S → Cur β → Prop} {Q : Fin n → S → Cur β → Prop}
  {active : Fin n → Bool}

theorem Rel.follow {st : SubState n S} {ct : SubState n (Cur β)} (h : Rel Q0 Q st ct) {i : Fin n} {s m : S}
    {c d : Cur β} (hi : Q i s c) (hm : Q0 m d) (e : Fin n → Bool) :
    Rel Q0 Q ⟨m, Function.update st.followers i (some s), e⟩
      ⟨d, Function.update ct.followers i (some c), e⟩ := by
  refine ⟨hm, fun j c' hj => ?_, fun j hj => ?_, rfl⟩
  · by_cases e : j = i
    · subst e
      simp only [Function.update_self, Option.some.injEq] at hj ⊢
      subst hj
      exact ⟨s, rfl, hi⟩
    · simp only [Function.update_of_ne e] at hj ⊢
      exact h.fsome j c' hj
  · by_cases e : j = i
    · subst e; simp at hj
    · simp only [Function.update_of_ne e] at hj ⊢
      exact h.fnone j hj

theorem Rel.withEqual {st : SubState n S} {ct : SubState n (Cur β)} (h : Rel Q0 Q st ct) (e : Fin n → Bool) :
    Rel Q0 Q ⟨st.main, st.followers, e⟩ ⟨ct.main, ct.followers, e⟩ := ⟨h.main, h.fsome, h.fnone, rfl⟩

theorem param_subtractPass (h0 : SimOn cops Q0) (idx : List (Fin n))
    (hK : ∀ j ∈ idx, active j = true → SeekOn cops (Q j)) :
    ∀ {st : SubState n S} {ct : SubState n (Cur β)}, Rel Q0 Q st ct →
    ∀ {v : β} {flag : Bool} {r : SubState n (Cur β) × Option (β × Bool)},
      subtractPass curOps active idx ct v flag = some r →
      ∃ st', subtractPass cops active idx st v flag = some (st', r.2) ∧ Rel Q0 Q st' r.1 := by
  induction idx with
  | nil =>
    intro st ct hR v flag r h
    simp only [subtractPass, Option.some.injEq] at h
    subst h
    exact ⟨st, rfl, hR⟩
  | cons i idx ih =>
    intro st ct hR v flag r h
    simp only [subtractPass] at h ⊢
    have ih' := @ih (fun j hj => hK j (List.mem_cons_of_mem _ hj))
    by_cases ha : active i = true
    · rw [if_pos ha] at h ⊢
      obtain ⟨c, h1, h⟩ := Option.bind_eq_some_iff.mp h
      obtain ⟨s, h2, h3⟩ := hR.fsome i c h1
      rw [h2, Option.bind_some]
      obtain ⟨s', h4, h5⟩ := hK i (by simp) ha _ _ v h3
      rw [h4]
      simp only [curOps, Option.bind_some] at h ⊢
      rw [hR.equal]
      by_cases e : (c.seek v).current = some v
      · rw [if_pos e] at h ⊢
        obtain ⟨m', h6, h7⟩ := h0.next _ _ hR.main
        rw [h6]
        simp only [Option.bind_some] at h ⊢
        cases hc : ct.main.next.current with
        | none =>
          simp only [hc, Option.some.injEq] at h ⊢
          subst h
          exact ⟨_, rfl, hR.follow h5 h7 _⟩
        | some v' =>
          simp only [hc] at h ⊢
          exact ih' (hR.follow h5 h7 _) h
      · rw [if_neg e] at h ⊢
        exact ih' (hR.follow h5 hR.main _) h
    · rw [if_neg ha] at h ⊢
      rw [hR.equal]
      exact ih' (hR.withEqual _) h

theorem param_subtractLoop (h0 : SimOn cops Q0) (idx : List (Fin n))
    (hK : ∀ j ∈ idx, active j = true → SeekOn cops (Q j)) {ct : SubState n (Cur β)} {v : β}
    {r : SubState n (Cur β) × Option β} (h : subtractLoop curOps active idx ct v = some r)
    {st : SubState n S} (hR : Rel Q0 Q st ct) :
    ∃ st', subtractLoop cops active idx st v = some (st', r.2) ∧ Rel Q0 Q st' r.1 := by
  refine subtractLoop.partial_correctness (n := n) (S := Cur β) (α := β) curOps active idx
    (fun ct v r => ∀ st, Rel Q0 Q st ct →
      ∃ st', subtractLoop cops active idx st v = some (st', r.2) ∧ Rel Q0 Q st' r.1) ?_ ct v r h st hR
  intro f ih ct v r h st hR
  rw [subtractLoop]
  simp only [Option.bind_eq_bind] at h ⊢
  obtain ⟨q, h1, h⟩ := Option.bind_eq_some_iff.mp h
  obtain ⟨st', h2, h3⟩ := param_subtractPass h0 idx hK hR h1
  rw [h2, Option.bind_some]
  obtain ⟨q1, q2⟩ := q
  cases q2 with
  | none =>
    simp only [Option.some.injEq] at h ⊢
    subst h
    exact ⟨_, rfl, h3⟩
  | some x =>
    simp only at h ⊢
    by_cases e : x.2 = true
    · rw [if_pos e] at h ⊢
      exact ih _ _ _ h _ h3
    · rw [if_neg e] at h ⊢
      simp only [Option.some.injEq] at h ⊢
      subst h
      exact ⟨_, rfl, h3⟩

theorem param_followPass {v : β} (idx : List (Fin n))
    (hK : ∀ j ∈ idx, active j = true → SeekOn cops (Q j)) :
    ∀ {st : SubState n S} {ct ct' : SubState n (Cur β)}, Rel Q0 Q st ct →
      followPass curOps active v idx ct = some ct' →
      ∃ st', followPass cops active v idx st = some st' ∧ Rel Q0 Q st' ct' := by
  induction idx with
  | nil =>
    intro st ct ct' hR h
    simp only [followPass, Option.some.injEq] at h
    subst h
    exact ⟨st, rfl, hR⟩
  | cons i idx ih =>
    intro st ct ct' hR h
    simp only [followPass] at h ⊢
    have ih' := @ih (fun j hj => hK j (List.mem_cons_of_mem _ hj))
    by_cases ha : active i = true
    · rw [if_pos ha] at h ⊢
      obtain ⟨c, h1, h⟩ := Option.bind_eq_some_iff.mp h
      obtain ⟨s, h2, h3⟩ := hR.fsome i c h1
      rw [h2, Option.bind_some]
      obtain ⟨s', h4, h5⟩ := hK i (by simp) ha _ _ v h3
      rw [h4]
      simp only [curOps, Option.bind_some] at h ⊢
      rw [hR.equal]
      exact ih' (hR.follow h5 hR.main _) h
    · rw [if_neg ha] at h ⊢
      exact ih' hR h

theorem param_moveFollow (h0 : SimOn cops Q0) (sidx fidx : List (Fin n))
    (hK : ∀ j ∈ sidx ++ fidx, active j = true → SeekOn cops (Q j)) {ct : SubState n (Cur β)} {v : β}
    {r : SubState n (Cur β) × Option β} (h : moveFollow curOps active sidx fidx ct v = some r)
    {st : SubState n S} (hR : Rel Q0 Q st ct) :
    ∃ st', moveFollow cops active sidx fidx st v = some (st', r.2) ∧ Rel Q0 Q st' r.1 := by
  unfold moveFollow at h ⊢
  obtain ⟨q, h1, h⟩ := Option.bind_eq_some_iff.mp h
  obtain ⟨st', h2, h3⟩ := param_subtractLoop h0 sidx (fun j hj => hK j (by simp [hj])) h1 (hR.withEqual active)
  rw [h2, Option.bind_some]
  obtain ⟨q1, q2⟩ := q
  cases q2 with
  | none =>
    simp only [Option.some.injEq] at h ⊢
    subst h
    exact ⟨_, rfl, h3⟩
  | some v' =>
    simp only at h ⊢
    obtain ⟨ct', h4, h5⟩ := Option.map_eq_some_iff.mp h
    obtain ⟨st'', h6, h7⟩ := param_followPass (Q0 := Q0) fidx (fun j hj => hK j (by simp [hj])) h3 h4
    subst h5
    exact ⟨st'', by rw [h6]; rfl, h7⟩

theorem param_continue (h0 : SimOn cops Q0) {sidx fidx : List (Fin n)}
    (hK : ∀ j ∈ sidx ++ fidx, active j = true → SeekOn cops (Q j)) {ct : SubState n (Cur β)}
    {cur o : Option β} {ca : Cur β} {sa : S} {r : SubScan n (Cur β) β}
    (h : continueWith curOps ⟨ct, sidx, fidx, active, cur⟩ (ca.current, ca) = some (o, r))
    {st : SubState n S} (hR : Rel Q0 Q st ct) (hs : Q0 sa ca) :
    ∃ st', continueWith cops ⟨st, sidx, fidx, active, cur⟩ (ca.current, sa) =
      some (o, ⟨st', sidx, fidx, active, r.cur⟩) ∧ Rel Q0 Q st' r.toSubState ∧
      r = ⟨r.toSubState, sidx, fidx, active, r.cur⟩ := by
  unfold continueWith at h ⊢
  cases hc : ca.current with
  | none =>
    simp only [hc, Option.some.injEq, Prod.mk.injEq] at h ⊢
    obtain ⟨rfl, rfl⟩ := h
    exact ⟨_, ⟨rfl, rfl⟩, ⟨hs, hR.fsome, hR.fnone, hR.equal⟩, rfl⟩
  | some v =>
    simp only [hc] at h ⊢
    obtain ⟨q, h1, h2⟩ := Option.map_eq_some_iff.mp h
    obtain ⟨st', h3, h4⟩ := param_moveFollow h0 sidx fidx hK h1
      (st := { st with main := sa }) ⟨hs, hR.fsome, hR.fnone, hR.equal⟩
    simp only [Prod.mk.injEq] at h2
    obtain ⟨rfl, rfl⟩ := h2
    exact ⟨st', by rw [h3]; rfl, h4, rfl⟩

theorem param_next (h0 : SimOn cops Q0) {sidx fidx : List (Fin n)}
    (hK : ∀ j ∈ sidx ++ fidx, active j = true → SeekOn cops (Q j)) {ct : SubState n (Cur β)}
    {cur o : Option β} {r : SubScan n (Cur β) β}
    (h : (ops curOps).next ⟨ct, sidx, fidx, active, cur⟩ = some (o, r))
    {st : SubState n S} (hR : Rel Q0 Q st ct) :
    ∃ st', (ops cops).next ⟨st, sidx, fidx, active, cur⟩ =
      some (o, ⟨st', sidx, fidx, active, r.cur⟩) ∧ Rel Q0 Q st' r.toSubState ∧
      r = ⟨r.toSubState, sidx, fidx, active, r.cur⟩ := by
  obtain ⟨s', h1, h2⟩ := h0.next _ _ hR.main
  obtain ⟨st', h3, h4⟩ := param_continue h0 hK (show continueWith curOps ⟨ct, sidx, fidx, active, cur⟩
    (ct.main.next.current, ct.main.next) = some (o, r) from h) hR h2
  exact ⟨st', by simpa only [ops, h1, Option.bind_some] using h3, h4⟩

theorem param_seek (h0 : SimOn cops Q0) (h0' : SeekOn cops Q0) {sidx fidx : List (Fin n)}
    (hK : ∀ j ∈ sidx ++ fidx, active j = true → SeekOn cops (Q j)) {ct : SubState n (Cur β)}
    {cur o : Option β} {r : SubScan n (Cur β) β} {v : β}
    (h : (ops curOps).seek ⟨ct, sidx, fidx, active, cur⟩ v = some (o, r))
    {st : SubState n S} (hR : Rel Q0 Q st ct) :
    ∃ st', (ops cops).seek ⟨st, sidx, fidx, active, cur⟩ v =
      some (o, ⟨st', sidx, fidx, active, r.cur⟩) ∧ Rel Q0 Q st' r.toSubState ∧
      r = ⟨r.toSubState, sidx, fidx, active, r.cur⟩ := by
  obtain ⟨s', h1, h2⟩ := h0' _ _ v hR.main
  obtain ⟨st', h3, h4⟩ := param_continue h0 hK (show continueWith curOps ⟨ct, sidx, fidx, active, cur⟩
    ((ct.main.seek v).current, ct.main.seek v) = some (o, r) from h) hR h2
  exact ⟨st', by simpa only [ops, h1, Option.bind_some] using h3, h4⟩

end SubScan

/-! ## Filter -/

namespace FilterScan

theorem param_findNext {cops : ScanOps S β} {Q : S → Cur β → Prop} (hN : SimOn cops Q) {check : β → Bool}
    {c : Cur β} {r : Option β × Cur β} (h : findNext curOps check c = some r) {s : S} (hq : Q s c) :
    ∃ s', findNext cops check s = some (r.1, s') ∧ Q s' r.2 := by
  refine findNext.partial_correctness (S := Cur β) (α := β) curOps check
    (fun c r => ∀ s, Q s c → ∃ s', findNext cops check s = some (r.1, s') ∧ Q s' r.2) ?_ c r h s hq
  intro f ih c r h s hq
  rw [findNext]
  obtain ⟨s', h1, h2⟩ := hN.next _ _ hq
  simp only [h1, curOps, Option.bind_eq_bind, Option.bind_some] at h ⊢
  cases hc : c.next.current with
  | none =>
    simp only [hc, Option.some.injEq] at h ⊢
    subst h
    exact ⟨s', rfl, h2⟩
  | some v =>
    simp only [hc] at h ⊢
    split at h
    · next e =>
      simp only [Option.some.injEq] at h
      subst h
      exact ⟨s', by rw [if_pos e], h2⟩
    · next e => rw [if_neg e]; exact ih _ _ h _ h2

end FilterScan
end Verif
