import Verif.PropEngine

/-!
# Every intermediate state

The states that the engine reaches while it runs, also if it never stops: they only contain facts of the stable model
(C19), no fact is stored twice (C28), tables can be combined without visible effect (C26), and each application
of a rule leaves no match of the rule unused (C17).
-/

set_option linter.unusedSimpArgs false
set_option linter.unusedSectionVars false

namespace Verif

/-! ## Unfinished runs -/

/-- The beginning of a run of a strategy. -/
inductive SPrefix {S : Type} (next : S → Option Bool → Option Nat × S) :
    S → Option Bool → List (Nat × Bool) → Prop
  | nil {s : S} {nd : Option Bool} : SPrefix next s nd []
  | step {s s' : S} {nd : Option Bool} {i : Nat} {d : Bool} {tr : List (Nat × Bool)} :
      next s nd = (some i, s') → SPrefix next s' (some d) tr → SPrefix next s nd ((i, d) :: tr)

/-- Some groups have been processed, and the processing of the next one has begun. -/
inductive PhasedPrefix : List (List Nat) → List (Nat × Bool) → Prop
  | nil {phases : List (List Nat)} : PhasedPrefix phases []
  | cur {ph : List Nat} {rest : List (List Nat)} {t : List (Nat × Bool)} : (∀ x ∈ t, x.1 ∈ ph) → PhasedPrefix (ph :: rest) t
  | next {ph : List Nat} {rest : List (List Nat)} {t t' : List (Nat × Bool)} : PhaseTrace ph t → PhasedPrefix rest t' →
      PhasedPrefix (ph :: rest) (t ++ t')

theorem PhasedPrefix.append_right {p1 p2 : List (List Nat)} {t : List (Nat × Bool)} (h : PhasedPrefix p1 t) :
    PhasedPrefix (p1 ++ p2) t := by
  induction h with
  | nil => exact .nil
  | cur h => exact .cur h
  | next h _ ih => exact .next h ih

theorem PhasedPrefix.append {p1 p2 : List (List Nat)} {t1 t2 : List (Nat × Bool)} (h1 : PhasedTrace p1 t1)
    (h2 : PhasedPrefix p2 t2) : PhasedPrefix (p1 ++ p2) (t1 ++ t2) := by
  obtain ⟨trs, hf, rfl⟩ := h1
  induction hf with
  | nil => exact h2
  | cons ht _ ih => rw [List.flatten_cons, List.append_assoc]; exact .next ht ih

theorem seq_prefix {S : Type} {next : S → Option Bool → Option Nat × S} {parts : List (List Nat × S)} {nd : Option Bool}
    {tr : List (Nat × Bool)} (h : SPrefix (seqNext next) parts nd tr) :
    tr = [] ∨ ∃ ids s rest tr1 tr2, parts = (ids, s) :: rest ∧ tr = liftTrace ids tr1 ++ tr2 ∧
      ((STrace next s nd tr1 ∧ SPrefix (seqNext next) rest none tr2) ∨ (SPrefix next s nd tr1 ∧ tr2 = [])) := by
  induction h with
  | nil => exact Or.inl rfl
  | @step parts parts' nd i d tr hn ht ih =>
    cases parts with
    | nil => simp [seqNext] at hn
    | cons p rest =>
      obtain ⟨ids, s⟩ := p
      right
      rw [seqNext] at hn
      split at hn
      · rename_i k s' he
        simp only [Prod.mk.injEq, Option.some.injEq] at hn
        obtain ⟨rfl, rfl⟩ := hn
        rcases ih with rfl | ⟨ids', s'', rest', tr1, tr2, h1, h2, h3⟩
        · exact ⟨ids, s, rest, [(k, d)], [], rfl, by simp [liftTrace], Or.inr ⟨.step he .nil, rfl⟩⟩
        · simp only [List.cons.injEq, Prod.mk.injEq] at h1
          obtain ⟨⟨rfl, rfl⟩, rfl⟩ := h1
          refine ⟨ids, s, rest, (k, d) :: tr1, tr2, rfl, by simp [liftTrace, h2], ?_⟩
          rcases h3 with ⟨h3, h4⟩ | ⟨h3, h4⟩
          · exact Or.inl ⟨.step he h3, h4⟩
          · exact Or.inr ⟨.step he h3, h4⟩
      · rename_i s' he
        exact ⟨ids, s, rest, [], (i, d) :: tr, rfl, rfl, Or.inl ⟨.stop (by rw [he]), .step hn ht⟩⟩

theorem rr_prefix {s : RoundRobin} {nd : Option Bool} {tr : List (Nat × Bool)} (h : SPrefix RoundRobin.next s nd tr)
    (hs : s.ruleCount = 0 ∨ s.current < s.ruleCount) : ∀ x ∈ tr, x.1 < s.ruleCount := by
  induction h with
  | nil => simp
  | @step s s' nd i d tr hn _ ih =>
    obtain ⟨⟨h1, h2⟩, h3⟩ := rr_bounded s.ruleCount s nd i s' ⟨rfl, hs⟩ hn
    intro x hx
    rcases List.mem_cons.1 hx with rfl | hx
    · exact h3
    · rw [← h1]; exact ih (by rw [h1]; exact h2) x hx

theorem graph_prefix {recursive : List Bool} {sccs : List (List Nat)} {tr : List (Nat × Bool)}
    (h : SPrefix (seqNext RoundRobin.next) (newGraph recursive sccs) none tr) : PhasedPrefix sccs tr := by
  induction sccs generalizing tr with
  | nil =>
    rcases seq_prefix h with rfl | ⟨_, _, _, _, _, h1, _⟩
    · exact .nil
    · simp [newGraph] at h1
  | cons scc sccs ih =>
    rcases seq_prefix h with rfl | ⟨ids, s, rest, tr1, tr2, h1, rfl, h3⟩
    · exact .nil
    · simp only [newGraph, List.map_cons, List.cons.injEq, Prod.mk.injEq] at h1
      obtain ⟨⟨rfl, rfl⟩, rfl⟩ := h1
      rcases h3 with ⟨h3, h4⟩ | ⟨h3, rfl⟩
      · exact .next (liftTrace_phase (by simp) (rr_trace h3)) (ih h4)
      · rw [List.append_nil]
        refine .cur ?_
        intro x hx
        obtain ⟨y, hy, rfl⟩ := List.mem_map.1 hx
        have := rr_prefix h3 (by simp only [RoundRobin.new]; omega) y hy
        simp only [RoundRobin.new, List.length_map] at this
        simp only
        rw [List.getD_eq_getElem?_getD, List.getElem?_eq_getElem this]
        exact List.getElem_mem this

theorem liftPrefix {ids : List Nat} {sccs : List (List Nat)} {tr : List (Nat × Bool)} (h : PhasedPrefix sccs tr) :
    PhasedPrefix (sccs.map fun scc => scc.map fun k => ids.getD k 0) (liftTrace ids tr) := by
  induction h with
  | nil => exact .nil
  | cur h =>
    refine .cur ?_
    intro x hx
    obtain ⟨y, hy, rfl⟩ := List.mem_map.1 hx
    exact List.mem_map.2 ⟨y.1, h y hy, rfl⟩
  | next h _ ih =>
    rw [liftTrace, List.map_append]
    exact .next (liftTrace_comp h) ih

/-- **The groups of the default strategy are processed one after the other.** -/
theorem stratified_prefix {recursive : List Bool} {strata : List (List Nat × List (List Nat))} {tr : List (Nat × Bool)}
    (h : SPrefix defaultNext (newStratified recursive strata) none tr) : PhasedPrefix (phasesOf strata) tr := by
  induction strata generalizing tr with
  | nil =>
    rcases seq_prefix h with rfl | ⟨_, _, _, _, _, h1, _⟩
    · exact .nil
    · simp [newStratified] at h1
  | cons s strata ih =>
    have hph : phasesOf (s :: strata) = (s.2.map fun scc => scc.map fun k => s.1.getD k 0) ++ phasesOf strata := by
      simp [phasesOf]
    rw [hph]
    rcases seq_prefix h with rfl | ⟨ids, s', rest, tr1, tr2, h1, rfl, h3⟩
    · exact .nil
    · simp only [newStratified, List.map_cons, List.cons.injEq, Prod.mk.injEq] at h1
      obtain ⟨⟨rfl, rfl⟩, rfl⟩ := h1
      rcases h3 with ⟨h3, h4⟩ | ⟨h3, rfl⟩
      · refine PhasedPrefix.append ?_ (ih h4)
        obtain ⟨sub, hsub, rfl⟩ := graph_trace h3
        refine ⟨sub.map (liftTrace s.1), ?_, ?_⟩
        · rw [List.forall₂_map_left_iff, List.forall₂_map_right_iff]
          exact hsub.imp fun _ _ h => liftTrace_comp h
        · simp only [liftTrace, List.map_flatten]; rfl
      · rw [List.append_nil]
        exact (liftPrefix (graph_prefix h3)).append_right

variable {α : Type} [DecidableEq α] [Dom α]

/-! ## Any sequence of rule applications -/

section any
variable {rules : List (NRule α)} {cfgs : List RuleCfg} {arity : Tag → Nat}

/-- what is known after any sequence of rule applications -/
structure Any (rules : List (NRule α)) (arity : Tag → Nat) (st : Eng α) : Prop where
  ok : st.OK arity
  cov : ∀ i r, rules[i]? = some r → r.containsAggregates = false → st.last i = 0 ∨
    (Derives r (Before st.At (st.last i)) st.Facts).le st.Facts

theorem BodyHolds.anti {r : NRule α} {P N N' : Interp α} (hN : N'.le N) {σ : Variable → α} (h : BodyHolds r P N σ) :
    BodyHolds r P N' σ :=
  ⟨h.pos, h.ops, fun a ha ⟨τ, t1, t2, t3⟩ => h.neg a ha ⟨τ, t1, hN _ _ t2, t3⟩⟩

theorem Derives.anti {r : NRule α} (ha : r.containsAggregates = false) {P N N' : Interp α} (hN : N'.le N) :
    (Derives r P N).le (Derives r P N') := by
  intro p row h
  unfold Derives at *
  simp only [ha, Bool.false_eq_true, if_false] at h ⊢
  exact h.mono ha fun σ hs => hs.anti hN

/-- One rule application: the invariants are kept, the added facts are exactly the missing ones of the matches
that use a new fact, and afterwards no consequence of the rule from the facts before is missing. -/
theorem Any.iterate (hp : ProgOK rules cfgs arity) {st st' : Eng α} (h : Any rules arity st) {i : Nat} {d : Bool}
    (hit : st.iterate rules cfgs i = some (st', d)) :
    Any rules arity st' ∧ ∃ r, rules[i]? = some r ∧
      (∀ p row, st'.Facts p row ↔ st.Facts p row ∨ DerivesWith r (NewMatch r st.At (st.last i) st.cur) p row) ∧
      (d = true ↔ ∃ p row, st'.Facts p row ∧ ¬ st.Facts p row) ∧
      (r.containsAggregates = false → (Derives r st.Facts st.Facts).le st'.Facts) := by
  have hlt : i < rules.length := by
    by_contra hge
    unfold Eng.iterate Eng.step at hit
    rw [List.getElem?_eq_none (by omega)] at hit
    simp at hit
  obtain ⟨r, hr⟩ : ∃ r, rules[i]? = some r := ⟨_, List.getElem?_eq_getElem hlt⟩
  obtain ⟨hr1, hr2, hr3⟩ := hp.rule r (List.mem_of_getElem? hr)
  obtain ⟨st'', d', e1, e2, e3, e4, e5, e6⟩ := Eng.iterate_spec (cfgs := cfgs) h.ok hr (by rw [hp.cfgs]; exact hlt) hr1 hr2 hr3
  rw [hit] at e1
  simp only [Option.some.injEq, Prod.mk.injEq] at e1
  obtain ⟨rfl, rfl⟩ := e1
  have hsub : st.Facts.le st'.Facts := by
    rintro p row ⟨s, hs⟩; exact ⟨s, (e5 p s row).2 (Or.inl hs)⟩
  have hfacts : ∀ p row, st'.Facts p row ↔ st.Facts p row ∨ st.Added r i p row := by
    intro p row
    constructor
    · rintro ⟨s, hs⟩
      rcases (e5 p s row).1 hs with h1 | ⟨-, h1⟩
      · exact Or.inl ⟨s, h1⟩
      · exact Or.inr h1
    · rintro (h1 | h1)
      · exact hsub _ _ h1
      · exact ⟨st.cur, (e5 p _ row).2 (Or.inr ⟨rfl, h1⟩)⟩
  have hfacts' : ∀ p row, st'.Facts p row ↔ st.Facts p row ∨ DerivesWith r (NewMatch r st.At (st.last i) st.cur) p row := by
    intro p row
    rw [hfacts]
    by_cases hf : st.Facts p row
    · simp [hf]
    · simp [hf, Eng.Added]
  have hcov : r.containsAggregates = false → (Derives r st.Facts st.Facts).le st'.Facts := by
    intro ha p row hd
    by_cases hfact : st.Facts p row
    · exact hsub _ _ hfact
    rw [hfacts']
    right
    unfold Derives at hd
    simp only [ha, Bool.false_eq_true, if_false] at hd
    cases hd with
    | agg _ h2 _ => rw [NRule.containsAggregates, h2] at ha; simp at ha
    | @plain σ hd k hb hk hna =>
      by_cases hu : UsesNew r st.At (st.last i) st.cur σ
      · refine .plain ⟨?_, hu⟩ hk hna
        exact (BodyHolds.congr (fun q _ row' => h.ok.before_iff q row') (fun q _ row' => h.ok.before_iff q row') σ).2 hb
      · exfalso
        unfold UsesNew at hu
        push Not at hu
        obtain ⟨hne, hu⟩ := hu
        have hold' : BodyHolds r (Before st.At (st.last i)) st.Facts σ := by
          refine ⟨fun a ha'' => ?_, hb.ops, hb.neg⟩
          obtain ⟨s, hs⟩ := hb.pos a ha''
          have hsc : s < st.cur := by
            obtain ⟨e, he, rfl, _⟩ := hs; exact h.ok.steps _ e he
          refine ⟨s, ?_, hs⟩
          by_contra hge
          exact hu a ha'' ⟨s, by omega, hsc, hs⟩
        rcases h.cov i r hr ha with hl' | hc
        · rw [hl'] at hold'
          obtain ⟨a, ha''⟩ := List.exists_mem_of_ne_nil _ hne
          obtain ⟨s, hs, -⟩ := hold'.pos a ha''
          omega
        · apply hfact
          apply hc
          unfold Derives
          simp only [ha, Bool.false_eq_true, if_false]
          exact .plain hold' hk hna
  refine ⟨⟨e2, ?_⟩, r, hr, hfacts', ?_, hcov⟩
  · intro j r' hr' ha
    rw [e4]
    by_cases hji : j = i
    · subst hji
      rw [hr] at hr'; cases hr'
      right
      rw [if_pos rfl]
      intro p row hd
      apply hcov ha
      refine Derives.anti ha hsub p row ?_
      refine (Derives.congr ?_ (fun _ _ _ => Iff.rfl) p row).1 hd
      intro q _ row'
      rw [← h.ok.before_iff]
      refine exists_congr fun s => and_congr_right fun hs => ?_
      rw [e5]
      exact ⟨fun h => h.resolve_right fun h' => by omega, Or.inl⟩
    · rw [if_neg hji]
      rcases h.cov j r' hr' ha with hl | hc
      · exact Or.inl hl
      · refine Or.inr fun p row hd => hsub _ _ (hc p row ?_)
        refine Derives.anti ha hsub p row ?_
        refine (Derives.congr ?_ (fun _ _ _ => Iff.rfl) p row).1 hd
        intro q _ row'
        refine exists_congr fun s => and_congr_right fun hs => ?_
        have := h.ok.last j
        rw [e5]
        exact ⟨fun h => h.resolve_right fun h' => by omega, Or.inl⟩
  · rw [e6]
    refine exists_congr fun p => exists_congr fun row => ?_
    rw [hfacts]
    constructor
    · intro ha; exact ⟨Or.inr ha, ha.2⟩
    · rintro ⟨h1 | h1, h2⟩
      · exact absurd h1 h2
      · exact h1

theorem Any.exec (hp : ProgOK rules cfgs arity) {st st' : Eng α} {tr : List (Nat × Bool)} (hex : Exec rules cfgs st tr st')
    (h : Any rules arity st) : Any rules arity st' ∧ st.Facts.le st'.Facts := by
  induction hex with
  | nil => exact ⟨h, fun _ _ h => h⟩
  | cons h1 _ ih =>
    obtain ⟨a1, r, -, a2, -⟩ := h.iterate hp h1
    obtain ⟨b1, b2⟩ := ih a1
    exact ⟨b1, fun p row hf => b2 p row ((a2 p row).2 (Or.inl hf))⟩

theorem any_init (rules : List (NRule α)) {edb : List (Tag × List (List α))} (he : EdbOK edb arity) (outs : List Tag) :
    Any rules arity (outs.foldl Eng.combinePredicate (Eng.init edb)) ∧
    ∀ p row, (outs.foldl Eng.combinePredicate (Eng.init edb)).Facts p row ↔ edbFacts edb p row := by
  obtain ⟨i1, i2, i3⟩ := Eng.init_spec (arity := arity) edb he.preds he.rows
  obtain ⟨c1, c2, c3⟩ := Eng.combinePredicates_spec outs i1
  refine ⟨⟨c1, fun i r _ _ => Or.inl (by rw [c3]; exact i3 i)⟩, fun p row => ?_⟩
  rw [edbFacts, ← i2]
  exact exists_congr fun s => c2 p s row

end any

/-! ## Soundness of unfinished runs -/

/-- restriction to the positive predicates of the rule -/
theorem Derives.mono_on {r : NRule α} {P P' N : Interp α} (h : ∀ q ∈ r.predsPositive, ∀ row, P q row → P' q row) :
    (Derives r P N).le (Derives r P' N) := by
  intro p row hd
  refine (Derives.congr (P := fun q row => q ∈ r.predsPositive → P' q row) (fun q hq row' => by simp [hq]) (fun _ _ _ => Iff.rfl) p row).1 ?_
  exact Derives.mono (fun q row' hq hm => h q hm row' hq) p row hd

theorem prefix_sound {rules : List (NRule α)} {cfgs : List RuleCfg} {arity : Tag → Nat} (hp : ProgOK rules cfgs arity)
    {M : Interp α} {phases : List (List Nat)} {tr : List (Nat × Bool)} (ht : PhasedPrefix phases tr) :
    ∀ {st0 st : Eng α}, PhasesOK rules phases → st0.OK arity → (∀ ph ∈ phases, ∀ i ∈ ph, st0.last i = 0) →
      Exec rules cfgs st0 tr st → st0.Facts.le M →
      (∀ p, (∀ ph ∈ phases, ∀ i ∈ ph, ∀ r, rules[i]? = some r → p ∉ r.predsHead) → ∀ row, M p row → st0.Facts p row) →
      (∀ ph ∈ phases, ∀ i ∈ ph, ∀ r, rules[i]? = some r → (Derives r M M).le M) →
      (∀ I, st0.Facts.le I → (∀ ph ∈ phases, ∀ i ∈ ph, ∀ r, rules[i]? = some r → (Derives r I M).le I) → M.le I) →
      st.Facts.le M := by
  have hinit : ∀ {ph : List Nat} {st0 : Eng α}, st0.OK arity → (∀ i ∈ ph, st0.last i = 0) → GInv rules arity ph st0 M st0 := by
    intro ph st0 h0 hlast
    refine ⟨h0, le_rfl, fun _ _ _ _ => Iff.rfl, ?_, fun i hi r _ => Or.inl (hlast i hi), fun I hI _ => hI, fun _ _ => rfl⟩
    rintro p s row hs ⟨e, he, rfl, _⟩
    have := h0.steps p e he; omega
  have hNs : ∀ {ph : List Nat} {rest : List (List Nat)} {st0 : Eng α}, PhasesOK rules (ph :: rest) → st0.Facts.le M →
      (∀ p, (∀ ph' ∈ ph :: rest, ∀ i ∈ ph', ∀ r, rules[i]? = some r → p ∉ r.predsHead) → ∀ row, M p row → st0.Facts p row) →
      ∀ i ∈ ph, ∀ r, rules[i]? = some r → ∀ p ∈ r.predsStrict, ∀ row, M p row ↔ st0.Facts p row := by
    intro ph rest st0 hph hle hfin i hi r hr p hps row
    refine ⟨hfin p ?_ row, hle p row⟩
    intro ph' hm j hj r' hr' hpr
    rcases List.mem_cons.1 hm with rfl | hm
    · exact (hph.group ph' List.mem_cons_self).strict j hj i hi r' r hr' hr p hpr hps
    · obtain ⟨n1, n2⟩ := (List.pairwise_cons.1 hph.later).1 ph' hm i hi j hj r r' hr hr' p hpr
      unfold NRule.predsStrict at hps
      rw [List.mem_append] at hps
      rcases hps with h1 | h1
      · exact n2 h1
      · split at h1
        · exact n1 h1
        · simp at h1
  induction ht with
  | nil => intro st0 st _ _ _ hex hle _ _ _; cases hex; exact hle
  | @cur ph rest t hmem =>
    intro st0 st hph h0 hlast hex hle hfin hcl _
    have g := (hinit h0 (hlast ph List.mem_cons_self)).exec hp (hph.group ph List.mem_cons_self) h0 (hNs hph hle hfin) hex hmem
    exact g.sound M hle (hcl ph List.mem_cons_self)
  | @next ph rest t t' hpt _ ih =>
    intro st0 st hph h0 hlast hex hle hfin hcl hleast
    obtain ⟨st1, x1, x2⟩ := hex.append_inv
    have hg := hph.group ph List.mem_cons_self
    have hdis := List.pairwise_cons.1 hph.disjoint
    have hlat := List.pairwise_cons.1 hph.later
    obtain ⟨g1, g2⟩ := group_spec hp hg h0 (hNs hph hle hfin) (hlast ph List.mem_cons_self) hpt x1
    have hle1 : st1.Facts.le M := g1.sound M hle (hcl ph List.mem_cons_self)
    have h01 : st0.Facts.le st1.Facts := by
      rintro p row ⟨s, hs⟩
      obtain ⟨e, he, rfl, hrow⟩ := hs
      exact ⟨e.1, (g1.keep p e.1 row (h0.steps p e he)).2 ⟨e, he, rfl, hrow⟩⟩
    have hposfin : ∀ i ∈ ph, ∀ r, rules[i]? = some r → ∀ q ∈ r.predsPositive,
        ∀ ph' ∈ rest, ∀ j ∈ ph', ∀ r', rules[j]? = some r' → q ∉ r'.predsHead := by
      intro i hi r hr q hq ph' hm j hj r' hr' hqr
      exact (hlat.1 ph' hm i hi j hj r r' hr hr' q hqr).1 hq
    have hhead : ∀ (r : NRule α) (P N : Interp α) q row, Derives r P N q row → q ∈ r.predsHead := by
      intro r P N q row hd
      unfold Derives at hd
      cases hd with
      | plain _ hi _ => exact List.mem_map.2 ⟨_, List.mem_of_getElem? hi, rfl⟩
      | agg _ _ hi => exact List.mem_map.2 ⟨_, List.mem_of_getElem? hi, rfl⟩
    have hfin1 : ∀ p, (∀ ph' ∈ rest, ∀ i ∈ ph', ∀ r, rules[i]? = some r → p ∉ r.predsHead) →
        ∀ row, M p row → st1.Facts p row := by
      have := hleast (fun q row => M q row ∧ ((∀ ph' ∈ rest, ∀ i ∈ ph', ∀ r, rules[i]? = some r → q ∉ r.predsHead) →
        st1.Facts q row)) (fun q row h => ⟨hle q row h, fun _ => h01 q row h⟩) ?_
      · intro p hp' row hm; exact (this p row hm).2 hp'
      · intro ph' hm i hi r hr q row hd
        refine ⟨hcl ph' hm i hi r hr q row (Derives.mono (fun _ _ h => h.1) q row hd), fun hnot => ?_⟩
        rcases List.mem_cons.1 hm with rfl | hm
        · apply g2 i hi r hr q row
          exact Derives.mono_on (fun s hs row' h => h.2 (hposfin i hi r hr s hs)) q row hd
        · exact absurd (hhead r _ _ q row hd) (hnot ph' hm i hi r hr)
    refine ih ⟨fun ph hm => hph.group ph (List.mem_cons_of_mem _ hm), hdis.2, hlat.2⟩ g1.ok ?_ x2 hle1 hfin1
      (fun ph' hm => hcl ph' (List.mem_cons_of_mem _ hm)) ?_
    · intro ph' hm i hi
      rw [g1.others i fun hi' => hdis.1 ph' hm i hi' hi]
      exact hlast ph' (List.mem_cons_of_mem _ hm) i hi
    · intro I hI hIcl
      have := hleast (fun q row => M q row ∧ I q row) (fun q row h => ⟨hle q row h, hI q row (h01 q row h)⟩) ?_
      · exact fun q row h => (this q row h).2
      · intro ph' hm i hi r hr q row hd
        refine ⟨hcl ph' hm i hi r hr q row (Derives.mono (fun _ _ h => h.1) q row hd), ?_⟩
        rcases List.mem_cons.1 hm with rfl | hm
        · apply hI
          apply g2 i hi r hr q row
          exact Derives.mono_on (fun s hs row' h => hfin1 s (hposfin i hi r hr s hs) row' h.1) q row hd
        · exact hIcl ph' hm i hi r hr q row (Derives.mono (fun _ _ h => h.2) q row hd)

/-- The states that the engine reaches on the input `edb`: after any number of iterations of the loop of `execute`. -/
def Reached (cond : Nat → List (Nat × Nat) → List (List Nat)) (rules : List (NRule α)) (cfgs : List RuleCfg)
    (outs : List Tag) (edb : List (Tag × List (List α))) (st : Eng α) : Prop :=
  ∃ strata tr, newStrategy cond rules = some strata ∧
    SPrefix defaultNext (newStratified (rules.map (·.isRecursive)) strata) none tr ∧
    Exec rules cfgs (outs.foldl Eng.combinePredicate (Eng.init edb)) tr st

section reached
variable {cond : Nat → List (Nat × Nat) → List (List Nat)} {rules : List (NRule α)} {cfgs : List RuleCfg}
  {arity : Tag → Nat} {edb : List (Tag × List (List α))} {outs : List Tag} {st : Eng α}

theorem STrace.sprefix {S : Type} {next : S → Option Bool → Option Nat × S} {s : S} {nd : Option Bool}
    {tr : List (Nat × Bool)} (h : STrace next s nd tr) : SPrefix next s nd tr := by
  induction h with
  | stop _ => exact .nil
  | step h _ ih => exact .step h ih

/-- the final state is reached -/
theorem execute_reached {fuel : Nat} (h : Eng.execute cond rules cfgs outs fuel (Eng.init edb) = some (some st)) :
    Reached cond rules cfgs outs edb st := by
  unfold Eng.execute at h
  rw [Option.map_eq_some_iff] at h
  obtain ⟨strata, hs, h⟩ := h
  obtain ⟨tr, h1, h2⟩ := execLoop_exec h
  exact ⟨strata, tr, hs, h1.sprefix, h2⟩

theorem Reached.any (hp : ProgOK rules cfgs arity) (he : EdbOK edb arity) (h : Reached cond rules cfgs outs edb st) :
    Any rules arity st := by
  obtain ⟨_, _, _, _, h⟩ := h
  exact ((any_init rules he outs).1.exec hp h).1

/-- **C19: soundness of every intermediate state**, also if the execution does not terminate: all facts belong to the
stable model (which is unique by `stable_unique`). -/
theorem reached_sound (hcond : CondOK cond) (hp : ProgOK rules cfgs arity) (he : EdbOK edb arity)
    (h : Reached cond rules cfgs outs edb st) {M : Interp α} (hM : IsStable rules (edbFacts edb) M) :
    st.answers.le M := by
  have hok := (h.any hp he).ok
  rw [answers_eq hok]
  obtain ⟨strata, tr, h1, h2, h3⟩ := h
  obtain ⟨p1, p2⟩ := phases_ok cond hcond rules h1
  obtain ⟨i1, i2, i3⟩ := Eng.init_spec (arity := arity) edb he.preds he.rows
  obtain ⟨c1, c2, c3⟩ := Eng.combinePredicates_spec outs i1
  obtain ⟨a1, a2⟩ := any_init rules he outs
  have hcl := leastModel_closed rules (edbFacts edb) M
  rw [← hM] at hcl
  have hrule : ∀ r ∈ rules, ∃ ph ∈ phasesOf strata, ∃ i ∈ ph, rules[i]? = some r := by
    intro r hr
    obtain ⟨i, hi⟩ := List.getElem?_of_mem hr
    obtain ⟨ph, hm, him⟩ := p2 i (List.getElem?_eq_some_iff.1 hi).1
    exact ⟨ph, hm, i, him, hi⟩
  refine prefix_sound hp (stratified_prefix h2) p1 c1 (fun _ _ i _ => by rw [c3]; exact i3 i) h3 ?_ ?_ ?_ ?_
  · intro p row hf; exact hcl.1 p row ((a2 p row).1 hf)
  · intro p hnot row hm
    rw [hM] at hm
    rw [a2]
    have := hm (fun q row => M q row ∧ (q = p → edbFacts edb q row)) ?_
    · exact this.2 rfl
    refine ⟨fun q row h => ⟨hcl.1 q row h, fun _ => h⟩, ?_⟩
    intro r hr q row' hd
    refine ⟨hcl.2 r hr q row' (Derives.mono (fun _ _ h => h.1) q row' hd), ?_⟩
    rintro rfl
    obtain ⟨ph, hm', i, hi, hri⟩ := hrule r hr
    refine absurd ?_ (hnot ph hm' i hi r hri)
    unfold Derives at hd
    cases hd with
    | plain _ hi _ => exact List.mem_map.2 ⟨_, List.mem_of_getElem? hi, rfl⟩
    | agg _ _ hi => exact List.mem_map.2 ⟨_, List.mem_of_getElem? hi, rfl⟩
  · intro ph _ i _ r hr; exact hcl.2 r (List.mem_of_getElem? hr)
  · intro I hI hIcl p row hm
    rw [hM] at hm
    refine hm I ⟨fun q row h => hI q row ((a2 q row).2 h), ?_⟩
    intro r hr
    obtain ⟨ph, hm', i, hi, hri⟩ := hrule r hr
    exact hIcl ph hm' i hi r hri

/-- **C28: no fact is stored twice**: in every reached state the tables of different steps are disjoint, each table
contains a fact once, and each fact is reported once. -/
theorem reached_no_duplicates (hp : ProgOK rules cfgs arity) (he : EdbOK edb arity)
    (h : Reached cond rules cfgs outs edb st) (p : Tag) :
    (∀ e ∈ (st.handlers p).single, ∀ e' ∈ (st.handlers p).single, ∀ row, row ∈ st.rows e.2 → row ∈ st.rows e'.2 → e.1 = e'.1) ∧
    (∀ e ∈ (st.handlers p).single, (st.rows e.2).Nodup) ∧ (st.predicateRows p).Nodup := by
  have hok := (h.any hp he).ok
  refine ⟨fun e h1 e' h2 row h3 h4 => hok.unique p e.1 e'.1 row ⟨e, h1, rfl, h3⟩ ⟨e', h2, rfl, h4⟩,
    fun e _ => hok.nodup e.2, (Eng.predicateRows_spec hok p).2⟩

/-- **C28: a predicate is reported as updated iff it has new facts.** -/
theorem reached_updated (hp : ProgOK rules cfgs arity) (he : EdbOK edb arity) (h : Reached cond rules cfgs outs edb st)
    {i : Nat} {st' : Eng α} {updated : List Tag} (hs : st.step rules cfgs i = some (st', updated)) (p : Tag) :
    p ∈ updated ↔ ∃ row, st'.Facts p row ∧ ¬ st.Facts p row := by
  have hok := (h.any hp he).ok
  unfold Eng.step at hs
  simp only [Option.bind_eq_bind, Option.pure_def, Option.bind_eq_some_iff, Option.some.injEq, Prod.mk.injEq] at hs
  obtain ⟨r, hr, cfg, hc, rfl, rfl⟩ := hs
  obtain ⟨hr1, hr2, hr3⟩ := hp.rule r (List.mem_of_getElem? hr)
  obtain ⟨k1, k2, -⟩ := executeRule_keys st.source st.cur (st.last i) r hr3 cfg st.nextNull
  have ktab := executeRule_tables st.source st.cur (st.last i) r cfg st.nextNull
  have kspec := executeRule_spec hok.srcOK (hok.last i) r hr1 hr2 hr3 cfg st.nextNull
  set res := executeRule st.source st.cur (st.last i) r cfg st.nextNull with hres
  obtain ⟨a1, a2, a3, a4, a5⟩ := Eng.addResults_spec hok.core res.1 k1 (fun t ht => (ktab t ht).2)
    (fun p e he => Or.inl (hok.steps p e he))
  have hfacts : ∀ p row, ({ st.addResults res.1 with
    history := st.history ++ [i]
    last := fun j => if j = i then st.cur else st.last j
    cur := st.cur + 1
    nextNull := res.2 } : Eng α).Facts p row ↔ st.Facts p row ∨ InTables res.1 p row := by
    intro p row
    show (∃ s, (st.addResults res.1).At p s row) ↔ _
    constructor
    · rintro ⟨s, hs⟩
      rcases (a4 p s row).1 hs with h | ⟨-, h⟩
      · exact Or.inl ⟨s, h⟩
      · exact Or.inr h
    · rintro (⟨s, h⟩ | h)
      · exact ⟨s, (a4 p s row).2 (Or.inl h)⟩
      · exact ⟨st.cur, (a4 p _ row).2 (Or.inr ⟨rfl, h⟩)⟩
  constructor
  · intro hp'
    obtain ⟨t, ht, rfl⟩ := List.mem_map.1 hp'
    obtain ⟨row, hrow⟩ := List.exists_mem_of_ne_nil _ (ktab t ht).1
    have hin : InTables res.1 t.1 row := ⟨t.2, ht, hrow⟩
    refine ⟨row, (hfacts _ _).2 (Or.inr hin), ?_⟩
    have := ((kspec t.1 row).1 hin).2
    rwa [hok.before_iff] at this
  · rintro ⟨row, h1, h2⟩
    obtain ⟨t, ht, -⟩ := ((hfacts p row).1 h1).resolve_left h2
    exact List.mem_map.2 ⟨_, ht, rfl⟩

/-- **C26: defragmentation is invisible**: in every reached state, the tables returned for a range of steps contain exactly
the facts of these steps, and this does not change when tables are combined. -/
theorem reached_range (hp : ProgOK rules cfgs arity) (he : EdbOK edb arity) (h : Reached cond rules cfgs outs edb st)
    (ps : List Tag) (p : Tag) (lo hi : Nat) (row : List α) :
    (row ∈ st.source p lo hi ↔ ∃ e ∈ (st.handlers p).single, lo ≤ e.1 ∧ e.1 < hi ∧ row ∈ st.rows e.2) ∧
    (row ∈ (st.defrag ps).source p lo hi ↔ row ∈ st.source p lo hi) := by
  have hok := (h.any hp he).ok
  obtain ⟨d1, d2, -⟩ := Eng.defrag_spec hok.core ps
  refine ⟨?_, ?_⟩
  · rw [Eng.OK.mem_source hok.handler]
    constructor
    · rintro ⟨_, h1, h2, e, h3, rfl, h4⟩; exact ⟨e, h3, h1, h2, h4⟩
    · rintro ⟨e, h1, h2, h3, h4⟩; exact ⟨e.1, h2, h3, e, h1, rfl, h4⟩
  · rw [Eng.OK.mem_source hok.handler, Eng.OK.mem_source d1.handler]
    exact exists_congr fun s => by rw [d2]

/-- **C17: semi-naive evaluation.** In every reached state, one application of a rule adds exactly the missing facts
derived by matches of the body that use at least one fact added since the rule was last applied (the positive
body atoms and negated atoms are evaluated over all facts); and for rules without aggregates this means that afterwards
every fact that the rule derives from the facts before the application is present. -/
theorem reached_seminaive (hp : ProgOK rules cfgs arity) (he : EdbOK edb arity) (h : Reached cond rules cfgs outs edb st)
    {i : Nat} {st' : Eng α} {d : Bool} (hit : st.iterate rules cfgs i = some (st', d)) :
    ∃ r, rules[i]? = some r ∧
      (∀ p row, st'.Facts p row ↔ st.Facts p row ∨ DerivesWith r (fun σ => BodyHolds r st.Facts st.Facts σ ∧
        (r.positive = [] ∨ ∃ a ∈ r.positive, ∃ s, st.last i ≤ s ∧ s < st.cur ∧ st.At a.pred s (a.terms.map σ))) p row) ∧
      (d = true ↔ ∃ p row, st'.Facts p row ∧ ¬ st.Facts p row) ∧
      (r.containsAggregates = false → (Derives r st.Facts st.Facts).le st'.Facts) := by
  have hany := h.any hp he
  obtain ⟨-, r, h1, h2, h3, h4⟩ := hany.iterate hp hit
  refine ⟨r, h1, fun p row => ?_, h3, h4⟩
  rw [h2]
  refine or_congr_right (DerivesWith.congr (fun σ => ?_) p row)
  unfold NewMatch
  rw [BodyHolds.congr (fun q _ row' => hany.ok.before_iff q row') (fun q _ row' => hany.ok.before_iff q row') σ]
  rfl

end reached
end Verif
