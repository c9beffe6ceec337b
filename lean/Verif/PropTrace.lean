import Verif.TraceRun
import Mathlib.Algebra.Order.BigOperators.Group.Finset

/-!
# C30: traces are genuine
-/

set_option linter.unusedSimpArgs false
set_option linter.unusedSectionVars false

namespace Verif.Trace
variable {α : Type} [DecidableEq α] [Dom α]

/-! ## Specification -/

/-- **Genuine explanations.**  The tree explains the fact `p(row)`: it is an input fact, or an instance of a head atom
of a rule whose body is satisfied, where the subtrees explain the positive facts of the body, in their order.  The values that are
shown for the variables are those of the match (for computed variables: if there is only one; see `assignment_swapped`). -/
inductive Genuine (rules : List (NRule α)) (edb M : Interp α) : Tree α → Tag → List α → Prop
  | fact {p : Tag} {row : List α} : edb p row → Genuine rules edb M (.fact (p, row)) p row
  | rule {i k : Nat} {asg : List (Variable × α)} {subs : List (Tree α)} {r : NRule α} {hd : HeadAtom α} {σ : Variable → α} :
      rules[i]? = some r → r.head[k]? = some hd → BodyHolds r M M σ →
      (∀ v, SafeVar r.positive r.operations v → ∃ a, (v, a) ∈ asg) →
      (∀ x ∈ asg, x.1 ∈ atomVars r.positive ∨ OneComputed r → σ x.1 = x.2) →
      subs.length = r.positive.length →
      (∀ (j : Nat) (a : BodyAtom) (s : Tree α), r.positive[j]? = some a → subs[j]? = some s → Genuine rules edb M s a.pred (a.terms.map σ)) →
      Genuine rules edb M (.rule i asg k subs) hd.pred (hd.inst σ)

/-- A fact with a genuine explanation is a consequence: it belongs to each set of facts that contains the input and is closed
under the rules. -/
theorem Genuine.sound {rules : List (NRule α)} {edb M I : Interp α} (hag : ∀ r ∈ rules, r.containsAggregates = false)
    (hI : ClosedUnder rules edb M I) {T : Tree α} {p : Tag} {row : List α} (h : Genuine rules edb M T p row) : I p row := by
  induction h with
  | fact h => exact hI.1 _ _ h
  | @rule i k asg subs r hd σ hr hk hb _ _ hl _ ih =>
    have hrm := List.mem_of_getElem? hr
    refine hI.2 r hrm _ _ ?_
    unfold Derives
    rw [hag r hrm]
    refine .plain (i := k) ?_ hk ?_
    · refine ⟨fun a ha => ?_, hb.ops, hb.neg⟩
      obtain ⟨j, hj⟩ := List.getElem?_of_mem ha
      have hlt : j < subs.length := by rw [hl]; exact (List.getElem?_eq_some_iff.1 hj).1
      exact ih j a subs[j] hj (List.getElem?_eq_getElem hlt)
    · intro a k' hagg
      have := hag r hrm
      unfold NRule.containsAggregates at this
      rw [hagg] at this; simp at this

section
variable {cond : Nat → List (Nat × Nat) → List (List Nat)} {rules : List (NRule α)} {cfgs : List RuleCfg}
  {arity : Tag → Nat} {edb : List (Tag × List (List α))} {outs : List Tag} {st : Eng α} {c : Choice α}

/-- The body of a recorded step is satisfied by all facts. -/
theorem body_all (hcond : CondOK cond) (hp : ProgOK rules cfgs arity) (hto : ∀ r ∈ rules, TraceOK r) (he : EdbOK edb arity)
    (h : Reached cond rules cfgs outs edb st) {step i : Nat} (h0 : step ≠ 0) (hi : st.history[step]? = some i) {r : NRule α}
    (hr : rules[i]? = some r) {σ : Variable → α} (hb : BodyHolds r (Before st.At step) (Before st.At step) σ) :
    BodyHolds r st.answers st.answers σ := by
  have hna : ∀ r ∈ rules, r.containsAggregates = false := fun r hr => (hto r hr).plain
  have hok := (h.hist hp hna he).ok
  rw [answers_eq hok]
  refine ⟨fun a ha => ?_, hb.ops, fun a ha ⟨τ, t1, t2, t3⟩ => hb.neg a ha ⟨τ, t1, ?_, t3⟩⟩
  · obtain ⟨s, -, hs⟩ := hb.pos a ha; exact ⟨s, hs⟩
  · obtain ⟨s, hs⟩ := t2
    exact ⟨s, h.negated hcond hp hna he h0 hi hr (List.mem_map.2 ⟨a, ha, rfl⟩) hs, hs⟩

theorem tree_genuine (hcond : CondOK cond) (hp : ProgOK rules cfgs arity) (hto : ∀ r ∈ rules, TraceOK r) (he : EdbOK edb arity)
    (h : Reached cond rules cfgs outs edb st) {t : Store α} (ht : TInv rules st t) (n : Nat) {f : GAtom α} {k : Nat} (hd : Done t f k)
    {s : Nat} (hat : st.At f.1 s f.2) (hs : s < n) :
    ∃ T, tree t n k = some T ∧ Genuine rules (edbFacts edb) st.answers T f.1 f.2 := by
  have hna : ∀ r ∈ rules, r.containsAggregates = false := fun r hr => (hto r hr).plain
  have hist := h.hist hp hna he
  induction n generalizing f k s with
  | zero => omega
  | succ n ih =>
    obtain ⟨x, h1, rfl, h3⟩ := hd
    have hstat := ht.nodes k x h1
    obtain ⟨f, status⟩ := x
    match status, h3, hstat with
    | .success .input, _, hstat =>
      refine ⟨.fact f, by simp [tree, h1], ?_⟩
      exact .fact ((hist.zero _ _).1 hstat)
    | .success (.derived i asg j subs), _, hstat =>
      obtain ⟨r, hd, σ, step, g1, g2, g3, g4, g5, g6, g7, g8, g9, g10⟩ := hstat
      have hst : step = s := hist.ok.unique _ _ _ _ g1 hat
      have key : ∀ (as : List BodyAtom) (subs : List Nat), (∀ a ∈ as, Before st.At step a.pred (a.terms.map σ)) →
          List.Forall₂ (fun (a : BodyAtom) h => Done t (a.pred, a.terms.map σ) h) as subs →
          ∃ Ts, subs.mapM (tree t n) = some Ts ∧ Ts.length = as.length ∧ ∀ (j : Nat) (a : BodyAtom) (T : Tree α), as[j]? = some a → Ts[j]? = some T →
            Genuine rules (edbFacts edb) st.answers T a.pred (a.terms.map σ) := by
        intro as subs hb hf
        induction hf with
        | nil => exact ⟨[], rfl, rfl, by simp⟩
        | @cons a k as subs hd _ ih' =>
          obtain ⟨s', hs1, hs2⟩ := hb a (by simp)
          obtain ⟨T, e1, e2⟩ := ih hd hs2 (by omega)
          obtain ⟨Ts, w1, w2, w3⟩ := ih' fun b hb' => hb b (by simp [hb'])
          refine ⟨T :: Ts, by rw [List.mapM_cons, e1, w1]; rfl, by simp [w2], ?_⟩
          intro j b T' hj hj'
          match j with
          | 0 =>
            simp only [List.getElem?_cons_zero, Option.some.injEq] at hj hj'
            subst hj hj'; exact e2
          | j + 1 => exact w3 j b T' (by simpa using hj) (by simpa using hj')
      obtain ⟨Ts, e1, e2, e3⟩ := key r.positive subs g8.pos g10
      refine ⟨.rule i asg j Ts, by simp [tree, h1, e1], ?_⟩
      dsimp only at g6 g7 ⊢
      rw [← g6, ← g7]
      exact .rule g4 g5 (body_all hcond hp hto he h g2 g3 g4 g8) g9.all g9.vals e2 e3

theorem tree_none {t : Store α} (ht : TInv rules st t) {k : Nat} {x : Traced α} (hk : t[k]? = some x)
    (hno : ¬ st.Facts x.fact.1 x.fact.2) (n : Nat) : tree t n k = none := by
  match n with
  | 0 => rfl
  | n + 1 =>
    have hstat := ht.nodes k x hk
    obtain ⟨f, status⟩ := x
    rcases hs : status with _ | d | _
    · subst hs; simp [tree, hk]
    · subst hs; exact absurd (hstat.facts rfl) hno
    · subst hs; simp [tree, hk]

theorem tinv_nil : TInv rules st ([] : Store α) := ⟨by simp, by simp⟩

/-- **C30: tracing explains exactly the facts of the result.**  At any point of an execution, for any list of facts and any
choice the program is free to make: tracing succeeds; for a fact that is stored, it shows a genuine explanation; for other
facts it shows none. -/
theorem trace_genuine_partial (hcond : CondOK cond) (hp : ProgOK rules cfgs arity) (hto : ∀ r ∈ rules, TraceOK r) (he : EdbOK edb arity)
    (h : Reached cond rules cfgs outs edb st) (hc : c.OK) {fuel : Nat} (hfuel : st.cur ≤ fuel) (fs : List (GAtom α)) :
    ∃ t hs, traceFacts c rules st fuel fs = some (t, hs) ∧
      List.Forall₂ (fun f k =>
        (st.answers f.1 f.2 → ∃ T, tree t fuel k = some T ∧ Genuine rules (edbFacts edb) st.answers T f.1 f.2) ∧
        (¬ st.answers f.1 f.2 → tree t fuel k = none)) fs hs := by
  have hna : ∀ r ∈ rules, r.containsAggregates = false := fun r hr => (hto r hr).plain
  have hist := h.hist hp hna he
  obtain ⟨t, hs, e1, e2, -, e4⟩ := traceAll_spec hc hp hto hist hfuel fs (tinv_nil (rules := rules) (st := st))
  refine ⟨t, hs, e1, e4.imp ?_⟩
  rintro f k ⟨x, hx, rfl, hx'⟩
  have hans := answers_eq hist.ok
  constructor
  · intro hf
    rw [hans] at hf
    obtain ⟨s, hat⟩ := hf
    refine tree_genuine hcond hp hto he h e2 fuel ⟨x, hx, rfl, hx' ⟨s, hat⟩⟩ hat ?_
    obtain ⟨e, hm, rfl, -⟩ := hat
    have := hist.ok.steps _ e hm; omega
  · rw [hans]; exact fun hno => tree_none e2 hx hno fuel

/-! ## Lists of inferences -/

/-- **Genuine inferences**: the conclusion is an input fact, or an instance of a head atom of the rule whose body is satisfied,
and the premises are the positive facts of the body. -/
def GenuineInf (rules : List (NRule α)) (edb M : Interp α) (x : Inference α) : Prop :=
  (x.trigger = none ∧ x.premises = [] ∧ edb x.conclusion.1 x.conclusion.2) ∨
  ∃ i asg r hd σ, x.trigger = some (i, asg) ∧ rules[i]? = some r ∧ hd ∈ r.head ∧ x.conclusion = (hd.pred, hd.inst σ) ∧
    BodyHolds r M M σ ∧ (∀ v, SafeVar r.positive r.operations v → ∃ a, (v, a) ∈ asg) ∧
    (∀ y ∈ asg, y.1 ∈ atomVars r.positive ∨ OneComputed r → σ y.1 = y.2) ∧
    x.premises = r.positive.map fun a => (a.pred, a.terms.map σ)

/-- the facts from which a node was derived -/
def subsOf (t : Store α) (h : Nat) : List Nat :=
  match t[h]? with
  | some ⟨_, .success (.derived _ _ _ subs)⟩ => subs
  | _ => []

/-- the inference of a node -/
def infOf (t : Store α) (h : Nat) : Option (Inference α) :=
  match t[h]? with
  | some ⟨f, .success d⟩ => some (inference t d f)
  | _ => none

/-- the node was traced successfully -/
def Succ (t : Store α) (h : Nat) : Prop := ∃ f, Done t f h

theorem infOf_some {t : Store α} {h : Nat} (hs : Succ t h) : ∃ x inf, t[h]? = some x ∧ infOf t h = some inf ∧ inf.conclusion = x.fact := by
  obtain ⟨f, x, h1, h2, h3⟩ := hs
  obtain ⟨g, s⟩ := x
  rcases s with _ | d | _
  · cases h3
  · refine ⟨_, inference t d g, h1, by simp [infOf, h1], ?_⟩
    cases d <;> rfl
  · cases h3

/-- the invariant of the loop -/
structure LInv (t : Store α) (s : ListSt α) : Prop where
  stack : ∀ h ∈ s.stack, Succ t h
  seen : ∀ h ∈ s.seen, Succ t h
  nodup : s.seen.Nodup
  infs : s.inferences = s.seen.reverse.filterMap (infOf t)
  closed : ∀ h ∈ s.seen, ∀ k ∈ subsOf t h, k ∈ s.seen ∨ k ∈ s.stack

theorem Succ.lt {t : Store α} {h : Nat} (hs : Succ t h) : h < t.length := by
  obtain ⟨f, x, h1, -⟩ := hs
  exact (List.getElem?_eq_some_iff.1 h1).1

/-- the work that is left -/
def work (t : Store α) (s : ListSt α) : Nat :=
  s.stack.length + ∑ h ∈ (Finset.range t.length).filter (fun h => h ∉ s.seen), (subsOf t h).length

theorem work_push (t : Store α) {h : Nat} {stack seen : List Nat} {inf inf' : List (Inference α)} (hlt : h < t.length) (hs : h ∉ seen) :
    work t ⟨(subsOf t h).reverse ++ stack, inf', h :: seen⟩ + 1 = work t ⟨h :: stack, inf, seen⟩ := by
  unfold work
  have : (Finset.range t.length).filter (fun k => k ∉ seen) =
      insert h ((Finset.range t.length).filter (fun k => k ∉ h :: seen)) := by
    ext k
    simp only [Finset.mem_filter, Finset.mem_range, Finset.mem_insert, List.mem_cons, not_or]
    constructor
    · rintro ⟨h1, h2⟩
      by_cases hk : k = h
      · exact Or.inl hk
      · exact Or.inr ⟨h1, hk, h2⟩
    · rintro (rfl | ⟨h1, -, h2⟩)
      · exact ⟨hlt, hs⟩
      · exact ⟨h1, h2⟩
  rw [this, Finset.sum_insert (by simp)]
  simp only [List.length_append, List.length_reverse, List.length_cons]
  omega

theorem listLoop_spec {t : Store α} (hsub : ∀ h, Succ t h → ∀ k ∈ subsOf t h, Succ t k) (n : Nat) (s : ListSt α)
    (hs : LInv t s) (hn : work t s < n) :
    ∃ s', listLoop t n s = some (s', true) ∧ LInv t s' ∧ s'.stack = [] ∧ (∀ h ∈ s.seen, h ∈ s'.seen) ∧ ∀ h ∈ s.stack, h ∈ s'.seen := by
  induction n generalizing s with
  | zero => omega
  | succ n ih =>
    obtain ⟨stack, inf, seen⟩ := s
    cases stack with
    | nil => exact ⟨⟨[], inf, seen⟩, rfl, hs, rfl, fun _ h => h, by simp⟩
    | cons h stack =>
      unfold listLoop
      by_cases hm : h ∈ seen
      · rw [if_pos hm]
        obtain ⟨s', e1, e2, e3, e4, e5⟩ := ih ⟨stack, inf, seen⟩ ⟨fun k hk => hs.stack k (List.mem_cons_of_mem _ hk), hs.seen, hs.nodup, hs.infs,
          fun k hk j hj => by
            rcases hs.closed k hk j hj with h1 | h1
            · exact Or.inl h1
            · rcases List.mem_cons.1 h1 with rfl | h1
              · exact Or.inl hm
              · exact Or.inr h1⟩ (by unfold work at hn ⊢; simp only [List.length_cons] at hn ⊢; omega)
        refine ⟨s', e1, e2, e3, e4, fun k hk => ?_⟩
        rcases List.mem_cons.1 hk with rfl | hk
        · exact e4 k hm
        · exact e5 k hk
      · rw [if_neg hm]
        have hsucc := hs.stack h (by simp)
        have step : ∀ inf', infOf t h = some inf' →
            ∃ s', listLoop t n ⟨(subsOf t h).reverse ++ stack, inf ++ [inf'], h :: seen⟩ = some (s', true) ∧ LInv t s' ∧ s'.stack = [] ∧
              (∀ k ∈ seen, k ∈ s'.seen) ∧ ∀ k ∈ h :: stack, k ∈ s'.seen := by
          intro inf' hinf'
          have hinv2 : LInv t ⟨(subsOf t h).reverse ++ stack, inf ++ [inf'], h :: seen⟩ := by
            refine ⟨fun k hk => ?_, fun k hk => ?_, List.nodup_cons.2 ⟨hm, hs.nodup⟩, ?_, fun k hk j hj => ?_⟩
            · rcases List.mem_append.1 hk with hk | hk
              · exact hsub h hsucc k (List.mem_reverse.1 hk)
              · exact hs.stack k (List.mem_cons_of_mem _ hk)
            · rcases List.mem_cons.1 hk with rfl | hk
              · exact hsucc
              · exact hs.seen k hk
            · have := hs.infs
              dsimp only at this ⊢
              rw [this, List.reverse_cons, List.filterMap_append]
              simp [hinf']
            · dsimp only at hj ⊢
              rcases List.mem_cons.1 hk with rfl | hk
              · exact Or.inr (List.mem_append_left _ (List.mem_reverse.2 hj))
              · rcases hs.closed k hk j hj with h1 | h1
                · exact Or.inl (List.mem_cons_of_mem _ h1)
                · rcases List.mem_cons.1 h1 with rfl | h1
                  · exact Or.inl List.mem_cons_self
                  · exact Or.inr (List.mem_append_right _ h1)
          have hw := work_push t (stack := stack) (inf := inf) (inf' := inf ++ [inf']) hsucc.lt hm
          obtain ⟨s', e1, e2, e3, e4, e5⟩ := ih _ hinv2 (by omega)
          refine ⟨s', e1, e2, e3, fun k hk => e4 k (List.mem_cons_of_mem _ hk), fun k hk => ?_⟩
          rcases List.mem_cons.1 hk with rfl | hk
          · exact e4 _ List.mem_cons_self
          · exact e5 k (List.mem_append_right _ hk)
        obtain ⟨f, x, hx, -, hx'⟩ := hsucc
        obtain ⟨g, status⟩ := x
        match status, hx', hx with
        | .success .input, _, hx =>
          have h1 : subsOf t h = [] := by simp [subsOf, hx]
          have h2 : infOf t h = some (inference t .input g) := by simp [infOf, hx]
          have := step _ h2
          rw [h1] at this
          simpa [hx] using this
        | .success (.derived i asg k subs), _, hx =>
          have h1 : subsOf t h = subs := by simp [subsOf, hx]
          have h2 : infOf t h = some (inference t (.derived i asg k subs) g) := by simp [infOf, hx]
          have := step _ h2
          rw [h1] at this
          simpa [hx] using this

theorem listOuter_spec {t : Store α} (hsub : ∀ h, Succ t h → ∀ k ∈ subsOf t h, Succ t k) {fuel : Nat} (hs : List Nat) (s : ListSt α)
    (hinv : LInv t s) (hh : ∀ h ∈ hs, Succ t h) (hf : work t s + 1 < fuel) (hf2 : 1 + ∑ h ∈ Finset.range t.length, (subsOf t h).length < fuel)
    (concl : List (GAtom α)) :
    ∃ s', listOuter t fuel hs s concl = some (concl ++ hs.filterMap (fun h => t[h]?.map (·.fact)), s'.inferences) ∧ LInv t s' ∧
      (hs ≠ [] → s'.stack = []) ∧ (hs = [] → s' = s) ∧ (∀ h ∈ s.seen, h ∈ s'.seen) ∧ ∀ h ∈ hs, h ∈ s'.seen := by
  induction hs generalizing s concl with
  | nil => exact ⟨s, by simp [listOuter], hinv, by simp, fun _ => rfl, fun _ h => h, by simp⟩
  | cons h hs ih =>
    have hsucc := hh h (by simp)
    have hinv' : LInv t { s with stack := h :: s.stack } :=
      ⟨fun k hk => by
        rcases List.mem_cons.1 hk with rfl | hk
        · exact hsucc
        · exact hinv.stack k hk, hinv.seen, hinv.nodup, hinv.infs, fun k hk j hj => (hinv.closed k hk j hj).imp_right (List.mem_cons_of_mem _)⟩
    obtain ⟨s1, e1, e2, e3, e4, e5⟩ := listLoop_spec hsub fuel { s with stack := h :: s.stack } hinv' (by
      unfold work at hf ⊢; simp only [List.length_cons]; omega)
    have hw : work t s1 + 1 < fuel := by
      unfold work
      rw [e3]
      have : ∑ h ∈ (Finset.range t.length).filter (fun h => h ∉ s1.seen), (subsOf t h).length ≤
          ∑ h ∈ Finset.range t.length, (subsOf t h).length :=
        Finset.sum_le_sum_of_subset (Finset.filter_subset _ _)
      simp only [List.length_nil]; omega
    obtain ⟨f, x, hx, -, -⟩ := hsucc
    obtain ⟨s2, w1, w2, w3, w4, w5, w6⟩ := ih s1 e2 (fun k hk => hh k (by simp [hk])) hw (concl ++ [x.fact])
    refine ⟨s2, ?_, w2, fun _ => ?_, by simp, fun k hk => w5 k (e4 k hk), fun k hk => ?_⟩
    · unfold listOuter
      rw [e1]
      simp only [Option.bind_eq_bind, Option.bind_some, hx, if_true]
      rw [w1]
      simp [hx]
    · cases hs with
      | nil => rw [w4 rfl]; exact e3
      | cons a l => exact w3 (by simp)
    · rcases List.mem_cons.1 hk with rfl | hk
      · exact w5 _ (e5 _ List.mem_cons_self)
      · exact w6 k hk

theorem done_facts {t : Store α} {σ : Variable → α} {as : List BodyAtom} {subs : List Nat}
    (h : List.Forall₂ (fun (a : BodyAtom) h => Done t (a.pred, a.terms.map σ) h) as subs) :
    subs.filterMap (fun k => t[k]?.map (·.fact)) = as.map fun a => (a.pred, a.terms.map σ) := by
  induction h with
  | nil => rfl
  | cons hx _ ih =>
    obtain ⟨x, h1, h2, -⟩ := hx
    rw [List.filterMap_cons, h1, ih]
    simp [h2]

/-- **C30: the list of inferences (JSON, GraphML) is a complete and genuine derivation.**  If all given facts are stored, then
they are the final conclusions; each inference is genuine; each premise and each final conclusion is the conclusion of an
inference of the list; and no fact is concluded twice. -/
theorem list_genuine_partial (hcond : CondOK cond) (hp : ProgOK rules cfgs arity) (hto : ∀ r ∈ rules, TraceOK r) (he : EdbOK edb arity)
    (h : Reached cond rules cfgs outs edb st) (hc : c.OK) {fuel : Nat} (hfuel : st.cur ≤ fuel) (fs : List (GAtom α))
    (hfs : ∀ f ∈ fs, st.answers f.1 f.2) :
    ∃ t hs, traceFacts c rules st fuel fs = some (t, hs) ∧ ∃ N, ∀ n, N ≤ n → ∃ infs, listOfInferences t n hs = some (fs, infs) ∧
      (∀ x ∈ infs, GenuineInf rules (edbFacts edb) st.answers x) ∧
      (∀ x ∈ infs, ∀ f ∈ x.premises, ∃ y ∈ infs, y.conclusion = f) ∧
      (∀ f ∈ fs, ∃ y ∈ infs, y.conclusion = f) ∧
      (infs.map (·.conclusion)).Nodup := by
  have hna : ∀ r ∈ rules, r.containsAggregates = false := fun r hr => (hto r hr).plain
  have hist := h.hist hp hna he
  obtain ⟨t, hs, e1, e2, -, e4⟩ := traceAll_spec hc hp hto hist hfuel fs (tinv_nil (rules := rules) (st := st))
  rw [answers_eq hist.ok] at hfs
  have hdone : List.Forall₂ (fun f k => Done t f k) fs hs := by
    clear e1
    induction e4 with
    | nil => exact .nil
    | cons hx _ ih =>
      obtain ⟨x, h1, h2, h3⟩ := hx
      exact .cons ⟨x, h1, h2, h3 (hfs _ (by simp))⟩ (ih fun f hf => hfs f (by simp [hf]))
  have hgood : ∀ (k i : Nat) (asg : List (Variable × α)) (j : Nat) (subs : List Nat) (f : GAtom α), t[k]? = some (⟨f, .success (.derived i asg j subs)⟩ : Traced α) → GoodStep rules st t f i asg j subs :=
    fun k i asg j subs f hk => e2.nodes k _ hk
  have hsub : ∀ k, Succ t k → ∀ j ∈ subsOf t k, Succ t j := by
    intro k _ j hj
    unfold subsOf at hj
    split at hj
    · rename_i f i asg l subs hk
      obtain ⟨r, hd, σ, step, -, -, -, -, -, -, -, -, -, g10⟩ := hgood _ _ _ _ _ _ hk
      obtain ⟨n, hn, rfl⟩ := List.getElem_of_mem hj
      have hlen := g10.length_eq
      exact ⟨_, (List.forall₂_iff_get.1 g10).2 n (by omega) hn⟩
    · simp at hj
  have hsucc : ∀ k ∈ hs, Succ t k := by
    intro k hk
    obtain ⟨n, hn, rfl⟩ := List.getElem_of_mem hk
    have hlen := hdone.length_eq
    exact ⟨_, (List.forall₂_iff_get.1 hdone).2 n (by omega) hn⟩
  have hmap : hs.filterMap (fun k => t[k]?.map (·.fact)) = fs := by
    clear e1 e4 hsucc hfs
    induction hdone with
    | nil => rfl
    | cons hx _ ih =>
      obtain ⟨x, h1, h2, -⟩ := hx
      rw [List.filterMap_cons, h1, ih]
      simp [h2]
  refine ⟨t, hs, e1, hs.length + (∑ h ∈ Finset.range t.length, (subsOf t h).length) + 2, fun n hn => ?_⟩
  obtain ⟨s', w1, w2, w3, w4, w5, w6⟩ := listOuter_spec (fuel := n) hsub hs ⟨hs.reverse, [], []⟩
    ⟨fun k hk => hsucc k (List.mem_reverse.1 hk), by simp, by simp, by simp, by simp⟩ hsucc
    (by unfold work; simp; omega) (by omega) []
  rw [hmap, List.nil_append] at w1
  have hmemi : ∀ x ∈ s'.inferences, ∃ k ∈ s'.seen, infOf t k = some x := by
    intro x hx
    rw [w2.infs, List.mem_filterMap] at hx
    obtain ⟨k, hk, hk'⟩ := hx
    exact ⟨k, List.mem_reverse.1 hk, hk'⟩
  have hconc : ∀ k ∈ s'.seen, ∀ f, Done t f k → ∃ y ∈ s'.inferences, y.conclusion = f := by
    intro k hk f ⟨x, h1, h2, _⟩
    obtain ⟨x', inf, g1, g2, g3⟩ := infOf_some (w2.seen k hk)
    refine ⟨inf, ?_, ?_⟩
    · rw [w2.infs, List.mem_filterMap]; exact ⟨k, List.mem_reverse.2 hk, g2⟩
    · rw [h1] at g1; simp only [Option.some.injEq] at g1; rw [g3, ← g1, h2]
  have hprem : ∀ (k : Nat) (f : GAtom α) (i : Nat) (asg : List (Variable × α)) (j : Nat) (subs : List Nat) (r : NRule α) (hd : HeadAtom α) (σ : Variable → α) (step : Nat), t[k]? = some (⟨f, .success (.derived i asg j subs)⟩ : Traced α) →
      (st.At f.1 step f.2 ∧ step ≠ 0 ∧ st.history[step]? = some i ∧ rules[i]? = some r ∧
      r.head[j]? = some hd ∧ hd.pred = f.1 ∧ hd.inst σ = f.2 ∧ BodyHolds r (Before st.At step) (Before st.At step) σ ∧
      AsgOK r asg σ ∧ List.Forall₂ (fun (a : BodyAtom) h => Done t (a.pred, a.terms.map σ) h) r.positive subs) →
      subs.filterMap (fun k => t[k]?.map (·.fact)) = r.positive.map fun a => (a.pred, a.terms.map σ) := by
    intro k f i asg j subs r hd σ step _ ⟨_, _, _, _, _, _, _, _, _, g10⟩
    exact done_facts g10
  refine ⟨s'.inferences, w1, fun x hx => ?_, fun x hx f hf => ?_, fun f hf => ?_, ?_⟩
  · obtain ⟨k, hk, hk'⟩ := hmemi x hx
    unfold infOf at hk'
    split at hk'
    · rename_i f d hd
      simp only [Option.some.injEq] at hk'
      subst hk'
      cases d with
      | input => exact Or.inl ⟨rfl, rfl, (hist.zero _ _).1 (e2.nodes k _ hd)⟩
      | derived i asg j subs =>
        obtain ⟨r, hd', σ, step, hg⟩ := hgood _ _ _ _ _ _ hd
        obtain ⟨g1, g2, g3, g4, g5, g6, g7, g8, g9, g10⟩ := hg
        refine Or.inr ⟨i, asg, r, hd', σ, rfl, g4, List.mem_of_getElem? g5, ?_, body_all hcond hp hto he h g2 g3 g4 g8, g9.all, g9.vals, ?_⟩
        · show f = _; rw [g6, g7]
        · exact hprem k f i asg j subs r hd' σ step hd ⟨g1, g2, g3, g4, g5, g6, g7, g8, g9, g10⟩
    · cases hk'
  · obtain ⟨k, hk, hk'⟩ := hmemi x hx
    unfold infOf at hk'
    split at hk'
    · rename_i g d hd
      simp only [Option.some.injEq] at hk'
      subst hk'
      cases d with
      | input => simp [inference] at hf
      | derived i asg j subs =>
        simp only [inference, List.mem_filterMap] at hf
        obtain ⟨l, hl, hl'⟩ := hf
        have hl2 : l ∈ subsOf t k := by simp [subsOf, hd, hl]
        have hne : hs ≠ [] := by
          rintro rfl
          have hn := w4 rfl
          rw [hn] at hk; simp at hk
        have hseen : l ∈ s'.seen := by
          rcases w2.closed k hk l hl2 with h1 | h1
          · exact h1
          · rw [w3 hne] at h1; simp at h1
        obtain ⟨f', x', h1, h2, h3⟩ := w2.seen l hseen
        refine hconc l hseen f ⟨x', h1, ?_, h3⟩
        rw [h1] at hl'; simpa using hl'
    · cases hk'
  · obtain ⟨n', hn', rfl⟩ := List.getElem_of_mem hf
    have hlen := hdone.length_eq
    exact hconc hs[n'] (w6 _ (List.getElem_mem _)) _ ((List.forall₂_iff_get.1 hdone).2 n' hn' (by omega))
  · have hall : ∀ (l : List Nat), l.Nodup → (∀ k ∈ l, Succ t k) → ((l.filterMap (infOf t)).map (·.conclusion)).Nodup := by
      intro l hl hsl
      induction l with
      | nil => simp
      | cons k l ih =>
        obtain ⟨x, inf, g1, g2, g3⟩ := infOf_some (hsl k (by simp))
        rw [List.filterMap_cons, g2]
        simp only [List.map_cons, List.nodup_cons]
        refine ⟨?_, ih (List.nodup_cons.1 hl).2 fun j hj => hsl j (by simp [hj])⟩
        intro hmem
        obtain ⟨inf', hinf', hcc⟩ := List.mem_map.1 hmem
        obtain ⟨j, hj, hj'⟩ := List.mem_filterMap.1 hinf'
        obtain ⟨y, inf2, q1, q2, q3⟩ := infOf_some (hsl j (by simp [hj]))
        rw [hj'] at q2
        simp only [Option.some.injEq] at q2
        subst q2
        have hfact : x.fact = y.fact := by rw [← g3, ← q3, hcc]
        have hkj : k = j := by
          obtain ⟨a1, a2⟩ := List.getElem?_eq_some_iff.1 g1
          obtain ⟨b1, b2⟩ := List.getElem?_eq_some_iff.1 q1
          have : (t.map (·.fact))[k]'(by simpa using a1) = (t.map (·.fact))[j]'(by simpa using b1) := by
            simp only [List.getElem_map, a2, b2, hfact]
          exact (List.Nodup.getElem_inj_iff e2.nodup).1 this
        subst hkj
        exact (List.nodup_cons.1 hl).1 hj
    rw [w2.infs]
    exact hall _ (List.nodup_reverse.2 w2.nodup) fun k hk => w2.seen k (List.mem_reverse.1 hk)

end
end Verif.Trace
