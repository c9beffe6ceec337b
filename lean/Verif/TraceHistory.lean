import Verif.Tracing

/-!
# The history of an execution

Each fact was given or derived, by the rule that is recorded for its step, from facts of earlier steps; and the
negated atoms of this rule are not matched by any fact that was added later.
-/

set_option linter.unusedSimpArgs false
set_option linter.unusedSectionVars false

namespace Verif
variable {α : Type} [DecidableEq α] [Dom α]

namespace Eng

theorem addResults_history (st : Eng α) (ts : List (Tag × List (List α))) :
    (st.addResults ts).history = st.history := by
  induction ts generalizing st with
  | nil => rfl
  | cons x ts ih => rw [addResults, ih]; rfl

theorem combineTables_history (st : Eng α) (p : Tag) (lo hi : Nat) :
    (st.combineTables p lo hi).history = st.history ∧ (st.combineTables p lo hi).cur = st.cur := by
  unfold combineTables
  simp only
  split
  · exact ⟨rfl, rfl⟩
  split
  · exact ⟨rfl, rfl⟩
  · exact ⟨rfl, rfl⟩

theorem defrag_history (st : Eng α) (ps : List Tag) : (st.defrag ps).history = st.history := by
  induction ps generalizing st with
  | nil => rfl
  | cons p ps ih =>
    have : st.defrag (p :: ps) = (st.defragOne p).defrag ps := rfl
    rw [this, ih]
    unfold defragOne
    split
    · exact (combineTables_history st p _ _).1
    · rfl

theorem iterate_history {rules : List (NRule α)} {cfgs : List RuleCfg} {st st' : Eng α} {i : Nat} {d : Bool}
    (h : st.iterate rules cfgs i = some (st', d)) : st'.history = st.history ++ [i] := by
  unfold iterate step at h
  simp only [Option.bind_eq_bind, Option.pure_def, Option.bind_eq_some_iff, Option.some.injEq, Prod.mk.injEq] at h
  obtain ⟨x, ⟨r, hr, cfg, hc, rfl⟩, rfl, -⟩ := h
  rw [defrag_history]

theorem combinePredicates_history (outs : List Tag) (st : Eng α) :
    (outs.foldl combinePredicate st).history = st.history ∧ (outs.foldl combinePredicate st).cur = st.cur := by
  induction outs generalizing st with
  | nil => exact ⟨rfl, rfl⟩
  | cons p outs ih =>
    rw [List.foldl_cons, (ih _).1, (ih _).2]
    unfold combinePredicate
    split
    · exact combineTables_history _ _ _ _
    · exact ⟨rfl, rfl⟩

theorem init_history (edb : List (Tag × List (List α))) :
    (init edb).history = [2 ^ 64 - 1] ∧ (init edb).cur = 1 := by
  unfold init
  suffices h : ∀ st : Eng α, (edb.foldl (fun st x => st.addEdb x.1 x.2) st).history = st.history ∧
      (edb.foldl (fun st x => st.addEdb x.1 x.2) st).cur = st.cur by
    exact ⟨(h _).1, (h _).2⟩
  intro st
  induction edb generalizing st with
  | nil => exact ⟨rfl, rfl⟩
  | cons x edb ih => rw [List.foldl_cons, (ih _).1, (ih _).2]; exact ⟨rfl, rfl⟩

end Eng

/-- what the history says about the facts -/
structure Hist (rules : List (NRule α)) (arity : Tag → Nat) (edb : List (Tag × List (List α))) (st : Eng α) : Prop where
  ok : st.OK arity
  len : st.history.length = st.cur
  zero : ∀ p row, st.At p 0 row ↔ edbFacts edb p row
  src : ∀ p s row, st.At p s row → s ≠ 0 → ∃ i r, st.history[s]? = some i ∧ rules[i]? = some r ∧
    DerivesWith r (BodyHolds r (Before st.At s) (Before st.At s)) p row

section
variable {rules : List (NRule α)} {cfgs : List RuleCfg} {arity : Tag → Nat} {edb : List (Tag × List (List α))} {outs : List Tag}

theorem DerivesWith.mono_body {r : NRule α} (hr : r.containsAggregates = false) {B B' : (Variable → α) → Prop}
    (h : ∀ σ, B σ → B' σ) {p : Tag} {row : List α} (hd : DerivesWith r B p row) : DerivesWith r B' p row :=
  hd.mono hr h

theorem hist_init (he : EdbOK edb arity) :
    Hist rules arity edb (outs.foldl Eng.combinePredicate (Eng.init edb)) := by
  obtain ⟨i1, i2, i3⟩ := Eng.init_spec (arity := arity) edb he.preds he.rows
  obtain ⟨c1, c2, c3⟩ := Eng.combinePredicates_spec outs i1
  obtain ⟨h1, h2⟩ := Eng.combinePredicates_history outs (Eng.init edb)
  obtain ⟨g1, g2⟩ := Eng.init_history edb
  have hs : ∀ p s row, (outs.foldl Eng.combinePredicate (Eng.init edb)).At p s row → s = 0 := by
    rintro p s row ⟨e, he, rfl, -⟩
    have := c1.steps p e he
    rw [h2, g2] at this; omega
  refine ⟨c1, by rw [h1, h2, g1, g2]; rfl, fun p row => ?_, fun p s row h h0 => absurd (hs p s row h) h0⟩
  rw [edbFacts, ← i2]
  constructor
  · intro h; exact ⟨0, (c2 _ _ _).1 h⟩
  · rintro ⟨s, h⟩
    have h' := (c2 _ _ _).2 h
    have := hs _ _ _ h'; subst this; exact h'

/-- Without aggregates, the recorded rule derives the fact from the facts before its step. -/
theorem Hist.iterate (hp : ProgOK rules cfgs arity) (hna : ∀ r ∈ rules, r.containsAggregates = false) {st st' : Eng α}
    (h : Hist rules arity edb st) {i : Nat} {d : Bool} (hit : st.iterate rules cfgs i = some (st', d)) :
    Hist rules arity edb st' := by
  have hh := Eng.iterate_history hit
  have hlt : i < rules.length := by
    by_contra hge
    unfold Eng.iterate Eng.step at hit
    rw [List.getElem?_eq_none (by omega)] at hit
    simp at hit
  obtain ⟨r, hr⟩ : ∃ r, rules[i]? = some r := ⟨_, List.getElem?_eq_getElem hlt⟩
  have hmem := List.mem_of_getElem? hr
  obtain ⟨hr1, hr2, hr3⟩ := hp.rule r hmem
  obtain ⟨st'', d', e1, e2, e3, e4, e5, e6⟩ := Eng.iterate_spec (cfgs := cfgs) h.ok hr (by rw [hp.cfgs]; exact hlt) hr1 hr2 hr3
  rw [hit] at e1
  simp only [Option.some.injEq, Prod.mk.injEq] at e1
  obtain ⟨rfl, rfl⟩ := e1
  have hbef : ∀ s, s ≤ st.cur → Before st'.At s = Before st.At s := by
    intro s hs
    funext p row
    refine propext (exists_congr fun s' => and_congr_right fun hlt' => ?_)
    rw [e5]
    exact ⟨fun h => h.resolve_right fun h' => by omega, Or.inl⟩
  refine ⟨e2, by rw [hh, e3, List.length_append, h.len]; rfl, fun p row => ?_, fun p s row hat h0 => ?_⟩
  · rw [e5, ← h.zero]
    exact ⟨fun h' => h'.resolve_right fun h'' => by have := h.ok.pos; omega, Or.inl⟩
  · rcases (e5 p s row).1 hat with h1 | ⟨rfl, h1, -⟩
    · obtain ⟨j, r', g1, g2, g3⟩ := h.src p s row h1 h0
      have hs : s < st.cur := by obtain ⟨e, he, rfl, -⟩ := h1; exact h.ok.steps p e he
      refine ⟨j, r', ?_, g2, ?_⟩
      · rw [hh, List.getElem?_append_left (by rw [h.len]; exact hs)]; exact g1
      · rw [hbef s hs.le]; exact g3
    · refine ⟨i, r, ?_, hr, ?_⟩
      · rw [hh, ← h.len]; simp
      · rw [hbef _ le_rfl]
        exact h1.mono_body (hna r hmem) fun σ hs => hs.1

theorem Hist.exec (hp : ProgOK rules cfgs arity) (hna : ∀ r ∈ rules, r.containsAggregates = false) {st st' : Eng α}
    {tr : List (Nat × Bool)} (hex : Exec rules cfgs st tr st') (h : Hist rules arity edb st) :
    Hist rules arity edb st' ∧ st'.history = st.history ++ tr.map (·.1) := by
  induction hex with
  | nil => exact ⟨h, by simp⟩
  | cons h1 _ ih =>
    obtain ⟨a, b⟩ := ih (h.iterate hp hna h1)
    exact ⟨a, by rw [b, Eng.iterate_history h1]; simp⟩

end

/-- The groups are processed in their order. -/
theorem PhasedPrefix.order {phases : List (List Nat)} {tr : List (Nat × Bool)} (h : PhasedPrefix phases tr) {a b : Nat} (hab : a ≤ b)
    {x y : Nat × Bool} (ha : tr[a]? = some x) (hb : tr[b]? = some y) :
    (∃ ph ∈ phases, x.1 ∈ ph ∧ y.1 ∈ ph) ∨ ∃ ph ph', [ph, ph'].Sublist phases ∧ x.1 ∈ ph ∧ y.1 ∈ ph' := by
  induction h generalizing a b with
  | nil => simp at ha
  | @cur ph rest t h => exact Or.inl ⟨ph, List.mem_cons_self, h x (List.mem_of_getElem? ha), h y (List.mem_of_getElem? hb)⟩
  | @next ph rest t t' h1 h2 ih =>
    have hmem : ∀ {c : Nat} {z : Nat × Bool}, t'[c]? = some z → ∃ ph' ∈ rest, z.1 ∈ ph' := by
      intro c z hz
      have : ∀ {phases : List (List Nat)} {tr : List (Nat × Bool)}, PhasedPrefix phases tr → ∀ z ∈ tr, ∃ ph' ∈ phases, z.1 ∈ ph' := by
        intro phases tr h
        induction h with
        | nil => simp
        | cur h => intro z hz; exact ⟨_, List.mem_cons_self, h z hz⟩
        | next h _ ih =>
          intro z hz
          rcases List.mem_append.1 hz with hz | hz
          · exact ⟨_, List.mem_cons_self, h.mem z hz⟩
          · obtain ⟨p, hp, hq⟩ := ih z hz; exact ⟨p, List.mem_cons_of_mem _ hp, hq⟩
      exact this h2 z (List.mem_of_getElem? hz)
    by_cases hbt : b < t.length
    · rw [List.getElem?_append_left (by omega)] at ha
      rw [List.getElem?_append_left hbt] at hb
      exact Or.inl ⟨ph, List.mem_cons_self, h1.mem x (List.mem_of_getElem? ha), h1.mem y (List.mem_of_getElem? hb)⟩
    · rw [List.getElem?_append_right (by omega)] at hb
      by_cases hat : a < t.length
      · rw [List.getElem?_append_left hat] at ha
        obtain ⟨ph', hm, hy⟩ := hmem hb
        refine Or.inr ⟨ph, ph', ?_, h1.mem x (List.mem_of_getElem? ha), hy⟩
        exact List.Sublist.cons_cons _ (List.singleton_sublist.2 hm)
      · rw [List.getElem?_append_right (by omega)] at ha
        rcases ih (by omega) ha hb with ⟨p, hp, hq⟩ | ⟨p, p', hs, hq⟩
        · exact Or.inl ⟨p, List.mem_cons_of_mem _ hp, hq⟩
        · exact Or.inr ⟨p, p', hs.cons _, hq⟩

section
variable {cond : Nat → List (Nat × Nat) → List (List Nat)} {rules : List (NRule α)} {cfgs : List RuleCfg}
  {arity : Tag → Nat} {edb : List (Tag × List (List α))} {outs : List Tag} {st : Eng α}

/-- **The history of a reached state.** -/
theorem Reached.hist (hp : ProgOK rules cfgs arity) (hna : ∀ r ∈ rules, r.containsAggregates = false) (he : EdbOK edb arity)
    (h : Reached cond rules cfgs outs edb st) : Hist rules arity edb st := by
  obtain ⟨_, _, _, _, h⟩ := h
  exact ((hist_init he).exec hp hna h).1

/-- When a rule is applied, all facts of its negated predicates are known. -/
theorem Reached.negated (hcond : CondOK cond) (hp : ProgOK rules cfgs arity) (hna : ∀ r ∈ rules, r.containsAggregates = false)
    (he : EdbOK edb arity) (h : Reached cond rules cfgs outs edb st) {s i : Nat} {r : NRule α} (hs : s ≠ 0)
    (hi : st.history[s]? = some i) (hr : rules[i]? = some r) {q : Tag} (hq : q ∈ r.predsNegative) {s' : Nat} {row : List α}
    (hat : st.At q s' row) : s' < s := by
  have hh := h.hist hp hna he
  by_contra hge
  obtain ⟨j, r', h1, h2, h3⟩ := hh.src q s' row hat (by omega)
  have hhead : q ∈ r'.predsHead := (h3.arity (hp.rule r' (List.mem_of_getElem? h2)).2.1).2
  obtain ⟨strata, tr, g1, g2, g3⟩ := h
  have hhist := ((hist_init (rules := rules) (outs := outs) he).exec hp hna g3).2
  rw [(Eng.combinePredicates_history outs _).1, (Eng.init_history edb).1] at hhist
  obtain ⟨p1, -⟩ := phases_ok cond hcond rules g1
  obtain ⟨s, rfl⟩ := Nat.exists_eq_succ_of_ne_zero hs
  obtain ⟨s', rfl⟩ : ∃ n, s' = n + 1 := Nat.exists_eq_succ_of_ne_zero (by omega)
  rw [hhist] at hi h1
  simp only [List.cons_append, List.nil_append, Nat.succ_eq_add_one, List.getElem?_cons_succ, List.getElem?_map,
    Option.map_eq_some_iff] at hi h1
  obtain ⟨x, hx, rfl⟩ := hi
  obtain ⟨y, hy, rfl⟩ := h1
  rcases (stratified_prefix g2).order (by omega : s ≤ s') hx hy with ⟨ph, hm, hx', hy'⟩ | ⟨ph, ph', hsub, hx', hy'⟩
  · refine (p1.group ph hm).strict y.1 hy' x.1 hx' r' r h2 hr q hhead ?_
    exact List.mem_append_left _ hq
  · have := (p1.later.sublist hsub)
    simp only [List.pairwise_cons, List.mem_singleton, forall_eq] at this
    exact (this.1 x.1 hx' y.1 hy' r r' hr h2 q hhead).2 hq

end
end Verif
