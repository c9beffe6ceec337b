import Verif.NodeQuery
import Verif.PropTreeQuery
import Verif.NormalizeBody

/-!
# C66: the facts at the nodes of a derivation tree
-/

set_option linter.unusedSimpArgs false
set_option linter.unusedSectionVars false

namespace Verif.Trace.NodeQ
variable {α : Type} [DecidableEq α] [Dom α]

/-! ## Specification -/

/-- **The fact `p(row)` of step `s` is the root of a derivation of the given form**: it is one of the facts that the node allows, and for inner nodes it is derived in this step with the
given rule, as instance of the given head atom, from facts of earlier steps that are roots of derivations of the forms of the children. -/
inductive SatAt (rules : List (NRule α)) (st : Eng α) : Query α → Tag → List α → Nat → Prop
  | leaf {qs : List (List α)} {p : Tag} {row : List α} {s : Nat} : st.At p s row → (qs = [] ∨ row ∈ qs) → SatAt rules st (.leaf qs) p row s
  | node {qs : List (List α)} {i k : Nat} {cs : List (Query α)} {p : Tag} {row : List α} {s : Nat} {r : NRule α} {hd : HeadAtom α} {σ : Variable → α} {times : Nat → Nat} :
      st.At p s row → (qs = [] ∨ row ∈ qs) → st.history[s]? = some i → rules[i]? = some r → r.head[k]? = some hd → hd.pred = p → hd.inst σ = row →
      BodyHolds r (Before st.At s) (Before st.At s) σ → cs.length = r.positive.length → (∀ j, j < cs.length → times j < s) →
      (∀ (j : Nat) (a : BodyAtom) (q : Query α), r.positive[j]? = some a → cs[j]? = some q → SatAt rules st q a.pred (a.terms.map σ) (times j)) →
      SatAt rules st (.node qs i k cs) p row s

/-- The derivations of the fact `p(row)` of step `s` with the head atom `k` of rule `i` and children of the given forms: the rule, the values of its variables, and the steps of the
facts of its body -/
structure Match (rules : List (NRule α)) (st : Eng α) (i k : Nat) (cs : List (Query α)) (p : Tag) (row : List α) (s : Nat) (r : NRule α) (σ : Variable → α) (ts : Nat → Nat) : Prop where
  step : st.history[s]? = some i
  rule : rules[i]? = some r
  head : ∃ hd, r.head[k]? = some hd ∧ hd.pred = p ∧ hd.inst σ = row
  body : BodyHolds r (Before st.At s) (Before st.At s) σ
  length : cs.length = r.positive.length
  times : ∀ j, j < cs.length → ts j < s
  children : ∀ (j : Nat) (a : BodyAtom) (q : Query α), r.positive[j]? = some a → cs[j]? = some q → SatAt rules st q a.pred (a.terms.map σ) (ts j)

/-- **The fact `p'(row')` occurs at an address** of a derivation of the given form; `q'` is the form of the part of the derivation below it. -/
inductive Occurs (rules : List (NRule α)) (st : Eng α) (q : Query α) (p : Tag) : List Nat → Query α → Tag → List α → Nat → Prop
  | root {row : List α} {s : Nat} : SatAt rules st q p row s → Occurs rules st q p [] q p row s
  | child {addr : List Nat} {qs : List (List α)} {i k : Nat} {cs : List (Query α)} {p' : Tag} {row : List α} {s : Nat} {r : NRule α} {σ : Variable → α} {times : Nat → Nat}
      {j : Nat} {a : BodyAtom} {q' : Query α} :
      Occurs rules st q p addr (.node qs i k cs) p' row s → Match rules st i k cs p' row s r σ times → r.positive[j]? = some a → cs[j]? = some q' →
      Occurs rules st q p (addr ++ [j]) q' a.pred (a.terms.map σ) (times j)

/-- **The facts that are shown for the children of a node explain the fact `p(row)` of step `s` at this node**: together they are the body of an instance of the rule. -/
def Explained (rules : List (NRule α)) (st : Eng α) (out : List (List Nat × List (List α))) (addr : List Nat) (q : Query α) (p : Tag) (row : List α) (s : Nat) : Prop :=
  match q with
  | .leaf _ => True
  | .node _ i k cs => ∃ r σ times, Match rules st i k cs p row s r σ times ∧
      ∀ (j : Nat) (a : BodyAtom), r.positive[j]? = some a → ∃ rows, (addr ++ [j], rows) ∈ out ∧ a.terms.map σ ∈ rows

/-- **Derivations of the given form** from a set of facts, without regard to the steps of the execution -/
inductive Form (rules : List (NRule α)) (M : Interp α) : Query α → Tag → List α → Prop
  | leaf {qs : List (List α)} {p : Tag} {row : List α} : M p row → (qs = [] ∨ row ∈ qs) → Form rules M (.leaf qs) p row
  | node {qs : List (List α)} {i k : Nat} {cs : List (Query α)} {p : Tag} {row : List α} {r : NRule α} {hd : HeadAtom α} {σ : Variable → α} :
      (qs = [] ∨ row ∈ qs) → rules[i]? = some r → r.head[k]? = some hd → hd.pred = p → hd.inst σ = row → BodyHolds r M M σ → cs.length = r.positive.length →
      (∀ (j : Nat) (a : BodyAtom) (q : Query α), r.positive[j]? = some a → cs[j]? = some q → Form rules M q a.pred (a.terms.map σ)) → Form rules M (.node qs i k cs) p row

/-- The queries for which the program does what it should: the rules of the nodes have heads with distinct variables (at least one) and different predicates, each variable of a positive
body atom occurs twice in the rule, and a node whose children are arbitrary facts is not restricted. -/
inductive Good (rules : List (NRule α)) : Query α → Tag → Prop
  | leaf {qs : List (List α)} {p : Tag} : Good rules (.leaf qs) p
  | node {qs : List (List α)} {i k : Nat} {cs : List (Query α)} {p : Tag} {r : NRule α} {hd : HeadAtom α} {vars : List Variable} :
      rules[i]? = some r → r.head[k]? = some hd → hd.pred = p → hd.terms = vars.map Primitive.var → vars.Nodup → vars ≠ [] → (∀ v ∈ vars, v.isExistential = false) →
      (r.head.map (·.pred)).Nodup → cs.length = r.positive.length → (∀ a ∈ r.positive, ∀ v ∈ a.terms, 2 ≤ (allVars r).count v) →
      (qs = [] ∨ ∃ q ∈ cs, q ≠ .leaf []) →
      (∀ (j : Nat) (a : BodyAtom) (q : Query α), r.positive[j]? = some a → cs[j]? = some q → Good rules q a.pred) → Good rules (.node qs i k cs) p

/-- One row is kept for the values of the other columns -/
structure Choice.OK (c : Choice α) : Prop where
  cols : ∀ (vs : List Variable) (R : Rel α), (c.single vs R).cols = R.cols
  sub : ∀ (vs : List Variable) (R : Rel α), ∀ row ∈ (c.single vs R).rows, row ∈ R.rows
  kept : ∀ (vs : List Variable) (R : Rel α), R.WF → ∀ σ, R.Holds σ → ∃ τ : Variable → α, (∀ v ∈ R.cols, v ∉ vs → τ v = σ v) ∧ (c.single vs R).Holds τ

/-! ## The variables of a node -/

theorem headVars_eq (r : NRule α) (vars : List Variable) : ∀ (i : Nat) (used : List Variable), vars.Nodup → (∀ v ∈ vars, v ∉ used) → (∀ v ∈ vars, v.isExistential = false) →
    headVars r i used (vars.map Primitive.var) = (vars, vars.filter fun v => decide (v ∉ atomVars r.positive)) := by
  induction vars with
  | nil => intros; rfl
  | cons v vs ih =>
    intro i used hn hu he
    rw [List.nodup_cons] at hn
    have h1 := ih (i + 1) (v :: used) hn.2 (fun w hw hc => by
      rcases List.mem_cons.1 hc with rfl | hc
      · exact hn.1 hw
      · exact hu w (by simp [hw]) hc) (fun w hw => he w (by simp [hw]))
    rw [List.map_cons, headVars, if_pos ⟨he v (by simp), hu v (by simp)⟩, h1]
    by_cases hv : v ∈ atomVars r.positive <;> simp [hv]

theorem zipIdx_map_fst {β : Type} (l : List β) (n : Nat) : (l.zipIdx n).map (·.1) = l := by
  induction l generalizing n with
  | nil => rfl
  | cons x l ih => simp [List.zipIdx_cons, ih]

theorem safe_mem {r : NRule α} {v : Variable} (h : SafeVar r.positive r.operations v) : v ∈ nonHeadVars r := by
  unfold nonHeadVars
  cases h with
  | atom ha hv => simp only [List.mem_append]; exact .inl (.inl (List.mem_flatMap.2 ⟨_, ha, hv⟩))
  | assign ho hv _ => simp only [List.mem_append]; exact .inr (List.mem_flatMap.2 ⟨_, ho, (assignment_vars hv).1⟩)

/-- the head of a good node -/
structure HeadGood (r : NRule α) (hd : HeadAtom α) (vars : List Variable) : Prop where
  terms : hd.terms = vars.map Primitive.var
  nodup : vars.Nodup
  ne : vars ≠ []
  univ : ∀ v ∈ vars, v.isExistential = false
  safe : ∀ v ∈ vars, SafeVar r.positive r.operations v

theorem shape_eq {r : NRule α} {hd : HeadAtom α} {vars : List Variable} (h : HeadGood r hd vars) :
    shape r hd [] = ⟨vars, restrictOrder r.order (atomVars r.positive) ++ vars.filter (fun v => decide (v ∉ atomVars r.positive)), vars, false⟩ := by
  have h1 := headVars_eq r vars 0 [] h.nodup (by simp) h.univ
  unfold shape
  rw [h.terms, h1]
  have h2 : (vars.zipIdx.filter fun x => decide (x.2 ∉ ([] : List Nat))).map (·.1) = vars := by
    rw [List.filter_eq_self.2 (by simp)]; exact zipIdx_map_fst _ _
  have h3 : ¬ ∀ v ∈ vars, v ∉ nonHeadVars r := by
    intro hc
    obtain ⟨v, hv⟩ := List.exists_mem_of_ne_nil _ h.ne
    exact hc v hv (safe_mem (h.safe v hv))
  simp only [h2, h3, decide_false]

theorem inst_eq {hd : HeadAtom α} {vars : List Variable} (h : hd.terms = vars.map Primitive.var) (σ : Variable → α) : hd.inst σ = vars.map σ := by
  unfold HeadAtom.inst
  rw [h, List.map_map]
  rfl

/-! ## The assignments of a node -/

/-- the rule with an additional positive atom -/
def ext (r : NRule α) (p : Tag) (vars : List Variable) : NRule α := { r with positive := r.positive ++ [⟨p, vars⟩] , order := r.order ++ vars.filter fun v => decide (v ∉ r.order) }

theorem ext_safe {r : NRule α} {p : Tag} {vars : List Variable} (h : ∀ v ∈ vars, SafeVar r.positive r.operations v) (v : Variable) :
    SafeVar (ext r p vars).positive (ext r p vars).operations v ↔ SafeVar r.positive r.operations v := by
  constructor
  · intro hv
    induction hv with
    | atom ha hv =>
      rcases List.mem_append.1 ha with ha | ha
      · exact .atom ha hv
      · simp only [List.mem_singleton] at ha; subst ha; exact h _ hv
    | assign ho hv _ ih => exact .assign ho hv ih
  · intro hv
    induction hv with
    | atom ha hv => exact .atom (List.mem_append_left _ ha) hv
    | assign ho hv _ ih => exact .assign ho hv ih

theorem ext_ok {r : NRule α} {arity : Tag → Nat} (hr : RuleOK r arity) {p : Tag} {vars : List Variable} (h : ∀ v ∈ vars, SafeVar r.positive r.operations v)
    (hn : vars.Nodup) (ha : vars.length = arity p) : RuleOK (ext r p vars) arity := by
  have hs := ext_safe (p := p) h
  refine ⟨?_, hr.negNodup, ?_, hr.negArity, ?_, ?_, ?_, ?_, ?_⟩
  · intro a hm
    rcases List.mem_append.1 hm with hm | hm
    · exact hr.posNodup a hm
    · simp only [List.mem_singleton] at hm; subst hm; exact hn
  · intro a hm
    rcases List.mem_append.1 hm with hm | hm
    · exact hr.posArity a hm
    · simp only [List.mem_singleton] at hm; subst hm; exact ha
  · refine List.nodup_append.2 ⟨hr.orderNodup, hn.filter _, ?_⟩
    intro a ha b hb hab
    subst hab
    simp only [List.mem_filter, decide_eq_true_eq] at hb
    exact hb.2 ha
  · intro v hv
    simp only [ext, atomVars, List.flatMap_append, List.mem_append, List.flatMap_cons, List.flatMap_nil, List.append_nil] at hv ⊢
    rcases hv with hv | hv
    · exact .inl (hr.orderCov v hv)
    · by_cases hvo : v ∈ r.order
      · exact .inl hvo
      · exact .inr (by simp [hv, hvo])
  · intro a hm
    obtain ⟨v, h1, h2⟩ := hr.negShared a hm
    exact ⟨v, h1, (hs v).2 h2⟩
  · intro a hm o ho hv
    simp only [hs] at hv ⊢
    exact hr.negLocal a hm o ho hv
  · refine hr.negDisjoint.imp fun {a b} hab v h1 h2 => (hs v).2 (hab v h1 h2)

/-- The tables of the atoms -/
def AtomsIn (r : NRule α) (bodies : List (List (List α))) (σ : Variable → α) : Prop :=
  ∀ (j : Nat) (a : BodyAtom) (B : List (List α)), r.positive[j]? = some a → bodies[j]? = some B → a.terms.map σ ∈ B

/-- **The table with the assignments** -/
theorem assignments_spec {c : Choice α} {src : Source α} {at_ : Tag → Nat → List α → Prop} {arity : Tag → Nat} {step : Nat}
    (h : SrcOK src at_ arity step) (hstep : 0 < step) {r : NRule α} (hr : RuleOK r arity) {hd : HeadAtom α} {vars : List Variable} (hh : HeadGood r hd vars)
    (ha : vars.length = arity hd.pred) (qs headRows : List (List α)) {bodies : List (List (List α))} (hbl : bodies.length = r.positive.length) :
    ∃ J, assignments c src r (shape r hd []) qs headRows bodies step =
        some (if ((shape r hd []).order.filter fun v => decide (v ∉ vars)).isEmpty then J else c.single ((shape r hd []).order.filter fun v => decide (v ∉ vars)) J) ∧
      J.WF ∧ (∃ rest, J.cols = (shape r hd []).order ++ rest) ∧
      ∀ σ, J.Holds σ ↔ vars.map σ ∈ headRows ∧ (qs = [] ∨ vars.map σ ∈ qs) ∧ AtomsIn r bodies σ ∧
        (∀ o ∈ r.operations, (∀ v ∈ o.vars, SafeVar r.positive r.operations v) → o.eval σ = some Dom.tru) ∧
        ∀ a ∈ r.negative, ¬ ∃ τ : Variable → α, (∀ v, SafeVar r.positive r.operations v → τ v = σ v) ∧ Before at_ step a.pred (a.terms.map τ) ∧
          ∀ o ∈ r.operations, (∀ v ∈ o.vars, SafeVar r.positive r.operations v ∨ v ∈ a.terms) → o.eval τ = some Dom.tru := by
  rw [shape_eq hh]
  set order := restrictOrder r.order (atomVars r.positive) ++ vars.filter (fun v => decide (v ∉ atomVars r.positive)) with ho
  set tables : List (Rel α) := [⟨vars, headRows⟩] ++ (if qs = [] then [] else [⟨vars, qs⟩]) ++ (r.positive.zip bodies).map fun x => ⟨x.1.terms, x.2⟩ with ht
  have hne : tables.isEmpty = false := by simp [ht]
  have hmo : ∀ v, v ∈ order ↔ v ∈ atomVars r.positive ∨ v ∈ vars := by
    intro v
    simp only [ho, List.mem_append, mem_restrictOrder, List.mem_filter, decide_eq_true_eq]
    constructor
    · rintro (h | h)
      · exact .inl h.2
      · exact .inr h.1
    · intro h
      by_cases hv : v ∈ atomVars r.positive
      · exact .inl ⟨hr.orderCov v hv, hv⟩
      · exact .inr ⟨h.resolve_left hv, hv⟩
  have hon : order.Nodup := by
    refine List.nodup_append.2 ⟨hr.orderNodup.filter _, hh.nodup.filter _, ?_⟩
    intro a h1 b h2 hab
    subst hab
    rw [mem_restrictOrder] at h1
    simp only [List.mem_filter, decide_eq_true_eq] at h2
    exact h2.2 h1.2
  have jw : (Rel.join order tables).WF := Rel.join_wf _ _ hon
  have hzip : ∀ t ∈ tables, (∀ v ∈ t.cols, v ∈ order) := by
    intro t htm v hv
    rw [ht] at htm
    simp only [List.mem_append, List.mem_singleton, List.mem_map] at htm
    rw [hmo]
    rcases htm with (rfl | h1) | ⟨x, hx, rfl⟩
    · exact .inr hv
    · split at h1
      · cases h1
      · simp only [List.mem_singleton] at h1; subst h1; exact .inr hv
    · exact .inl (List.mem_flatMap.2 ⟨x.1, (List.of_mem_zip hx).1, hv⟩)
  have hcov : ∀ v ∈ order, ∃ t ∈ tables, v ∈ t.cols := by
    intro v hv
    rcases (hmo v).1 hv with hv | hv
    · obtain ⟨a, ha, hva⟩ := List.mem_flatMap.1 hv
      obtain ⟨j, hj⟩ := List.getElem?_of_mem ha
      have hlt : j < bodies.length := by rw [hbl]; exact (List.getElem?_eq_some_iff.1 hj).1
      refine ⟨⟨a.terms, bodies[j]⟩, ?_, hva⟩
      rw [ht]
      refine List.mem_append_right _ (List.mem_map.2 ⟨(a, bodies[j]), ?_, rfl⟩)
      refine List.mem_of_getElem? (i := j) ?_
      rw [List.getElem?_zip_eq_some]
      exact ⟨hj, List.getElem?_eq_getElem hlt⟩
    · exact ⟨⟨vars, headRows⟩, by simp [ht], hv⟩
  have jh := Rel.join_holds order tables hzip hcov
  have hAt : ∀ σ, (Rel.join order tables).Holds σ ↔ vars.map σ ∈ headRows ∧ (qs = [] ∨ vars.map σ ∈ qs) ∧ AtomsIn r bodies σ := by
    intro σ
    rw [jh, ht]
    constructor
    · intro hall
      refine ⟨hall ⟨vars, headRows⟩ (by simp), ?_, ?_⟩
      · by_cases hq : qs = []
        · exact .inl hq
        · exact .inr (hall ⟨vars, qs⟩ (by simp [hq]))
      · intro j a B hj hB
        refine hall ⟨a.terms, B⟩ (List.mem_append_right _ (List.mem_map.2 ⟨(a, B), ?_, rfl⟩))
        exact List.mem_of_getElem? (i := j) (List.getElem?_zip_eq_some.2 ⟨hj, hB⟩)
    · rintro ⟨h1, h2, h3⟩ t htm
      simp only [List.mem_append, List.mem_singleton, List.mem_map] at htm
      rcases htm with (rfl | h4) | ⟨x, hx, rfl⟩
      · exact h1
      · split at h4
        · cases h4
        · rename_i hq
          simp only [List.mem_singleton] at h4; subst h4; exact h2.resolve_left hq
      · obtain ⟨j, hj⟩ := List.getElem?_of_mem hx
        rw [List.getElem?_zip_eq_some] at hj
        exact h3 j x.1 x.2 hj.1 hj.2
  have hs := ext_safe (p := hd.pred) hh.safe
  have hJv : ∀ v, v ∈ (Rel.join order tables).cols ↔ v ∈ atomVars (ext r hd.pred vars).positive := by
    intro v
    show v ∈ order ↔ _
    rw [hmo]
    simp [ext, atomVars]
  obtain ⟨g1, g2, -, g4, -⟩ := genFFN_spec h hstep (ext r hd.pred vars) (ext_ok hr hh.safe hh.nodup ha) (Rel.join order tables) jw hJv
  refine ⟨(genFFN src step step (Rel.join order tables) r.operations r.negative).1, ?_, g1, ?_, ?_⟩
  · unfold assignments
    simp only [Bool.false_eq_true, false_and, if_false, ← ht, hne]
  · refine ⟨(genFunction (Rel.join order tables).cols r.operations).1.vars.drop order.length, ?_⟩
    have h5 := (genFunction_spec (ext r hd.pred vars).positive (Rel.join order tables).cols (ext r hd.pred vars).operations hJv).1.vars_eq
    have h6 : (genFFN src step step (Rel.join order tables) r.operations r.negative).1.cols = (genFunction (Rel.join order tables).cols r.operations).1.vars := g2
    have h7 : (genFunction (Rel.join order tables).cols r.operations).1.vars = order ++ _ := h5
    rw [h6, h7]
    simp
  · intro σ
    have h5 := g4 σ
    have h6 : (genFFN src step step (Rel.join order tables) r.operations r.negative).1.Holds σ ↔ _ := h5
    rw [h6, hAt]
    simp only [hs]
    exact ⟨fun ⟨⟨a, b, d⟩, e, f⟩ => ⟨a, b, d, e, f⟩, fun ⟨a, b, d, e, f⟩ => ⟨⟨a, b, d⟩, e, f⟩⟩

/-! ## The facts of each step -/

theorem SatAt.at {rules : List (NRule α)} {st : Eng α} {q : Query α} {p : Tag} {row : List α} {s : Nat} (h : SatAt rules st q p row s) : st.At p s row := by
  cases h <;> assumption

theorem SatAt.of_match {rules : List (NRule α)} {st : Eng α} {qs : List (List α)} {i k : Nat} {cs : List (Query α)} {p : Tag} {row : List α} {s : Nat} {r : NRule α}
    {σ : Variable → α} {ts : Nat → Nat} (h1 : st.At p s row) (h2 : qs = [] ∨ row ∈ qs) (h : Match rules st i k cs p row s r σ ts) : SatAt rules st (.node qs i k cs) p row s := by
  obtain ⟨hd, a, b, d⟩ := h.head
  exact .node h1 h2 h.step h.rule a b d h.body h.length h.times h.children

theorem satAt_node {rules : List (NRule α)} {st : Eng α} {qs : List (List α)} {i k : Nat} {cs : List (Query α)} {p : Tag} {row : List α} {s : Nat} :
    SatAt rules st (.node qs i k cs) p row s ↔ st.At p s row ∧ (qs = [] ∨ row ∈ qs) ∧ ∃ r σ ts, Match rules st i k cs p row s r σ ts := by
  constructor
  · intro h
    cases h with
    | node h1 h2 h3 h4 h5 h6 h7 h8 h9 h10 h11 => exact ⟨h1, h2, _, _, _, h3, h4, ⟨_, h5, h6, h7⟩, h8, h9, h10, h11⟩
  · rintro ⟨h1, h2, r, σ, ts, h⟩
    exact .of_match h1 h2 h

/-- The tables of a node -/
structure TabSpec (rules : List (NRule α)) (st : Eng α) (q : Query α) (p : Tag) (n : Nat) (l : List (Nat × List (List α))) : Prop where
  steps : (l.map (·.1)).Pairwise (· < ·)
  rows : ∀ s row, (∃ rows, (s, rows) ∈ l ∧ row ∈ rows) ↔ s < n ∧ SatAt rules st q p row s

theorem mem_takeWhile_lt {β : Type} (l : List (Nat × β)) (s : Nat) (h : (l.map (·.1)).Pairwise (· < ·)) (x : Nat × β) :
    x ∈ l.takeWhile (fun x => decide (x.1 < s)) ↔ x ∈ l ∧ x.1 < s := by
  induction l with
  | nil => simp
  | cons y l ih =>
    rw [List.map_cons, List.pairwise_cons] at h
    rw [List.takeWhile_cons]
    by_cases hy : y.1 < s
    · simp only [hy, decide_true, if_true, List.mem_cons, ih h.2]
      constructor
      · rintro (rfl | h)
        · exact ⟨.inl rfl, hy⟩
        · exact ⟨.inr h.1, h.2⟩
      · rintro ⟨rfl | h, h'⟩
        · exact .inl rfl
        · exact .inr ⟨h, h'⟩
    · simp only [hy, decide_false, Bool.false_eq_true, if_false, List.not_mem_nil, false_iff, List.mem_cons, not_and]
      rintro (rfl | hx)
      · exact hy
      · have := h.1 x.1 (List.mem_map.2 ⟨x, hx, rfl⟩)
        omega

theorem mem_before {rules : List (NRule α)} {st : Eng α} {q : Query α} {p : Tag} {n : Nat} {l : List (Nat × List (List α))} (h : TabSpec rules st q p n l) {s : Nat} (hs : s ≤ n)
    (row : List α) : row ∈ before l s ↔ ∃ t, t < s ∧ SatAt rules st q p row t := by
  unfold before
  simp only [List.mem_flatMap, mem_takeWhile_lt l s h.steps]
  constructor
  · rintro ⟨x, ⟨h1, h2⟩, h3⟩
    exact ⟨x.1, h2, ((h.rows x.1 row).1 ⟨x.2, h1, h3⟩).2⟩
  · rintro ⟨t, h1, h2⟩
    obtain ⟨rows, h3, h4⟩ := (h.rows t row).2 ⟨by omega, h2⟩
    exact ⟨(t, rows), ⟨h3, h1⟩, h4⟩

section
variable {rules : List (NRule α)} {arity : Tag → Nat} {edb : List (Tag × List (List α))} {st : Eng α} {c : Choice α}

theorem stepTables_steps (hok : st.OK arity) (p : Tag) (n : Nat) : ((stepTables st p n).map (·.1)).Pairwise (· < ·) := by
  unfold stepTables
  rw [List.map_map]
  have h := (hok.handler p).steps
  have h2 : ((((st.handlers p).single.filter fun e => decide (e.1 < n))).map (·.1)).Sublist ((st.handlers p).single.map (·.1)) := List.filter_sublist.map _
  exact h.sublist h2

theorem stepTables_lt (hok : st.OK arity) {p : Tag} {n : Nat} {x : Nat × List (List α)} (hx : x ∈ stepTables st p n) : x.1 < n ∧ x.1 < st.cur := by
  unfold stepTables at hx
  obtain ⟨e, he, rfl⟩ := List.mem_map.1 hx
  simp only [List.mem_filter, decide_eq_true_eq] at he
  exact ⟨he.2, hok.steps p e he.1⟩

theorem mem_stepTables (hok : st.OK arity) (p : Tag) (n s : Nat) (row : List α) :
    (∃ rows, (s, rows) ∈ stepTables st p n ∧ row ∈ rows) ↔ s < n ∧ st.At p s row := by
  unfold stepTables Eng.At
  simp only [List.mem_map, List.mem_filter, decide_eq_true_eq, Prod.mk.injEq]
  constructor
  · rintro ⟨rows, ⟨e, ⟨h1, h2⟩, h3, h4⟩, h5⟩
    subst h3 h4
    exact ⟨h2, e, h1, rfl, h5⟩
  · rintro ⟨h2, e, h1, rfl, h5⟩
    exact ⟨_, ⟨e, ⟨h1, h2⟩, rfl, rfl⟩, h5⟩

theorem steps_inj {β : Type} {l : List (Nat × β)} (h : (l.map (·.1)).Pairwise (· < ·)) {s : Nat} {x y : β} (hx : (s, x) ∈ l) (hy : (s, y) ∈ l) : x = y := by
  have hn : (l.map (·.1)).Nodup := h.imp fun h => by omega
  have := List.inj_on_of_nodup_map hn hx hy rfl
  exact (Prod.mk.inj this).2

/-- the rows of the table of a step -/
theorem mem_stepTable (hok : st.OK arity) {p : Tag} {n : Nat} {x : Nat × List (List α)} (hx : x ∈ stepTables st p n) (row : List α) : row ∈ x.2 ↔ st.At p x.1 row := by
  constructor
  · intro h; exact ((mem_stepTables hok p n x.1 row).1 ⟨x.2, hx, h⟩).2
  · intro h
    obtain ⟨rows, h1, h2⟩ := (mem_stepTables hok p n x.1 row).2 ⟨(stepTables_lt hok hx).1, h⟩
    rw [steps_inj (stepTables_steps hok p n) (s := x.1) hx h1]
    exact h2

theorem leaf_spec (hok : st.OK arity) (qs : List (List α)) (p : Tag) (n : Nat) (k : Nat) :
    TabSpec rules st (.leaf qs) p n ((stepTables st p n).filterMap (leafTable c [] qs k)) := by
  have key : ∀ x, leafTable c [] qs k x = if qs = [] then some x else if (x.2.filter fun row => decide (row ∈ qs)) = [] then none
      else some (x.1, x.2.filter fun row => decide (row ∈ qs)) := by
    intro x
    unfold leafTable
    by_cases h : qs = [] <;> simp [h]
  have h1 : ∀ (l : List (Nat × List (List α))), ((l.filterMap (leafTable c [] qs k)).map (·.1)).Sublist (l.map (·.1)) := by
    intro l
    induction l with
    | nil => simp
    | cons x l ih =>
      rw [List.filterMap_cons, key]
      by_cases h : qs = []
      · simp only [h, if_true, List.map_cons]
        rw [h] at ih
        exact ih.cons_cons _
      · simp only [h, if_false]
        by_cases h2 : (x.2.filter fun row => decide (row ∈ qs)) = []
        · simp only [h2, if_true]; exact ih.cons _
        · simp only [h2, if_false, List.map_cons]; exact ih.cons_cons _
  refine ⟨(stepTables_steps hok p n).sublist (h1 _), fun s row => ?_⟩
  have h2 : SatAt rules st (.leaf qs) p row s ↔ st.At p s row ∧ (qs = [] ∨ row ∈ qs) :=
    ⟨fun h => by cases h with | leaf a b => exact ⟨a, b⟩, fun h => .leaf h.1 h.2⟩
  rw [h2, ← and_assoc, ← mem_stepTables hok]
  constructor
  · rintro ⟨rows, h3, h4⟩
    obtain ⟨x, h5, h6⟩ := List.mem_filterMap.1 h3
    rw [key] at h6
    by_cases h : qs = []
    · simp only [h, if_true, Option.some.injEq] at h6
      subst h6
      exact ⟨⟨_, h5, h4⟩, .inl h⟩
    · simp only [h, if_false] at h6
      split at h6
      · cases h6
      · simp only [Option.some.injEq, Prod.mk.injEq] at h6
        obtain ⟨rfl, rfl⟩ := h6
        simp only [List.mem_filter, decide_eq_true_eq] at h4
        exact ⟨⟨x.2, h5, h4.1⟩, .inr h4.2⟩
  · rintro ⟨⟨rows, h3, h4⟩, h5⟩
    by_cases h : qs = []
    · exact ⟨rows, List.mem_filterMap.2 ⟨_, h3, by rw [key, if_pos h]⟩, h4⟩
    · have hm : row ∈ rows.filter fun row => decide (row ∈ qs) := by simp [h4, h5.resolve_left h]
      refine ⟨_, List.mem_filterMap.2 ⟨_, h3, ?_⟩, hm⟩
      rw [key, if_neg h, if_neg]
      intro hc
      have hc' : (rows.filter fun row => decide (row ∈ qs)) = [] := hc
      rw [hc'] at hm; cases hm

theorem nextStep_ge (st : Eng α) {i n s : Nat} (hs : s < n) (hi : st.history[s]? = some i) : s ≤ nextStep st i n := by
  unfold nextStep
  set l := (List.range n).filter fun s => decide (st.history[s]? = some i) with hl
  have hm : s ∈ l := by simp [hl, hs, hi]
  have hp : l.Pairwise (· < ·) := List.pairwise_lt_range.sublist List.filter_sublist
  have hne : l ≠ [] := List.ne_nil_of_mem hm
  rw [List.getLast?_eq_getLast_of_ne_nil hne, Option.getD_some]
  have h1 : l = l.dropLast ++ [l.getLast hne] := (List.dropLast_append_getLast hne).symm
  rw [h1] at hm hp
  rcases List.mem_append.1 hm with hm | hm
  · exact Nat.le_of_lt ((List.pairwise_append.1 hp).2.2 s hm _ (by simp))
  · simp only [List.mem_singleton] at hm; omega

theorem srcOK_step (hok : st.OK arity) {s : Nat} (hs : s ≤ st.cur) : SrcOK st.source st.At arity s :=
  ⟨fun p lo hi row h => hok.srcOK.mem p lo hi row (by omega), hok.srcOK.len⟩

/-- the tables of the children of a node -/
def ChildTabs (rules : List (NRule α)) (st : Eng α) (r : NRule α) (cs : List (Query α)) (vs : List (Valid α)) (n : Nat) : Prop :=
  vs.length = r.positive.length ∧ ∀ (j : Nat) (a : BodyAtom) (q : Query α) (v : Valid α), r.positive[j]? = some a → cs[j]? = some q → vs[j]? = some v →
    TabSpec rules st q a.pred n v.tables

/-- the facts of the children before a step -/
def bodiesAt (r : NRule α) (vs : List (Valid α)) (s : Nat) : List (List (List α)) :=
  r.positive.zipIdx.map fun y => ((vs[y.2]?).map fun v => before v.tables s).getD []

theorem atomsIn_iff {r : NRule α} {cs : List (Query α)} {vs : List (Valid α)} {n s : Nat} (h : ChildTabs rules st r cs vs n) (hl : cs.length = r.positive.length) (hs : s ≤ n)
    (σ : Variable → α) : AtomsIn r (bodiesAt r vs s) σ ↔ ∃ ts : Nat → Nat, (∀ j, j < cs.length → ts j < s) ∧
      ∀ (j : Nat) (a : BodyAtom) (q : Query α), r.positive[j]? = some a → cs[j]? = some q → SatAt rules st q a.pred (a.terms.map σ) (ts j) := by
  have hb : ∀ (j : Nat) (a : BodyAtom) (v : Valid α), r.positive[j]? = some a → vs[j]? = some v → (bodiesAt r vs s)[j]? = some (before v.tables s) := by
    intro j a v ha hv
    unfold bodiesAt
    rw [List.getElem?_map, List.getElem?_zipIdx, ha]
    simp [hv]
  have hget : ∀ (j : Nat), j < r.positive.length → ∃ a q v, r.positive[j]? = some a ∧ cs[j]? = some q ∧ vs[j]? = some v := by
    intro j hj
    exact ⟨r.positive[j], cs[j]'(by omega), vs[j]'(by rw [h.1]; omega), List.getElem?_eq_getElem _, List.getElem?_eq_getElem _, List.getElem?_eq_getElem _⟩
  constructor
  · intro hA
    have hex : ∀ j, ∃ t, j < r.positive.length → t < s ∧ ∀ (a : BodyAtom) (q : Query α), r.positive[j]? = some a → cs[j]? = some q → SatAt rules st q a.pred (a.terms.map σ) t := by
      intro j
      by_cases hj : j < r.positive.length
      · obtain ⟨a, q, v, h1, h2, h3⟩ := hget j hj
        obtain ⟨t, h4, h5⟩ := (mem_before (h.2 j a q v h1 h2 h3) hs _).1 (hA j a _ h1 (hb j a v h1 h3))
        refine ⟨t, fun _ => ⟨h4, fun a' q' h6 h7 => ?_⟩⟩
        rw [h1] at h6; rw [h2] at h7
        cases h6; cases h7
        exact h5
      · exact ⟨0, fun h => absurd h hj⟩
    choose ts hts using hex
    refine ⟨ts, fun j hj => (hts j (by omega)).1, fun j a q h1 h2 => ?_⟩
    exact (hts j (List.getElem?_eq_some_iff.1 h1).1).2 a q h1 h2
  · rintro ⟨ts, h1, h2⟩ j a B hj hB
    have hlt := (List.getElem?_eq_some_iff.1 hj).1
    obtain ⟨a', q, v, h3, h4, h5⟩ := hget j hlt
    rw [hj] at h3
    cases h3
    rw [hb j a v hj h5] at hB
    cases hB
    exact (mem_before (h.2 j a q v hj h4 h5) hs _).2 ⟨ts j, h1 j (by omega), h2 j a q hj h4⟩

/-- **The assignments of a step are the derivations of the facts of the node in this step.** -/
theorem node_assignments (hist : Hist rules arity edb st) {qs : List (List α)} {i k : Nat} {cs : List (Query α)} {p : Tag} {n n' : Nat} {r : NRule α} {hd : HeadAtom α}
    {vars : List Variable} (hr : rules[i]? = some r) (hk : r.head[k]? = some hd) (hp : hd.pred = p) (hro : RuleOK r arity) (hh : HeadGood r hd vars)
    (har : vars.length = arity hd.pred) {vs : List (Valid α)} (hv : ChildTabs rules st r cs vs n') (hl : cs.length = r.positive.length)
    {x : Nat × List (List α)} (hx : x ∈ stepTables st p n) (hi : st.history[x.1]? = some i) (h0 : x.1 ≠ 0) (hn : x.1 ≤ n') :
    ∃ J, assignments c st.source r (shape r hd []) qs x.2 (bodiesAt r vs x.1) x.1 =
        some (if ((shape r hd []).order.filter fun v => decide (v ∉ vars)).isEmpty then J else c.single ((shape r hd []).order.filter fun v => decide (v ∉ vars)) J) ∧
      J.WF ∧ (∃ rest, J.cols = (shape r hd []).order ++ rest) ∧
      ∀ σ, J.Holds σ ↔ st.At p x.1 (vars.map σ) ∧ (qs = [] ∨ vars.map σ ∈ qs) ∧ ∃ ts, Match rules st i k cs p (vars.map σ) x.1 r σ ts := by
  obtain ⟨J, h1, h2, h3, h4⟩ := assignments_spec (c := c) (srcOK_step hist.ok (Nat.le_of_lt (stepTables_lt hist.ok hx).2)) (Nat.pos_of_ne_zero h0) hro hh har qs x.2
    (bodies := bodiesAt r vs x.1) (by simp [bodiesAt])
  refine ⟨J, h1, h2, h3, fun σ => ?_⟩
  rw [h4, atomsIn_iff hv hl hn, mem_stepTable hist.ok hx]
  constructor
  · rintro ⟨a, b, ⟨ts, d1, d2⟩, e, f⟩
    refine ⟨a, b, ts, hi, hr, ⟨hd, hk, hp, inst_eq hh.terms σ⟩, ⟨fun at_ hat => ?_, e, f⟩, hl, d1, d2⟩
    obtain ⟨j, hj⟩ := List.getElem?_of_mem hat
    have hlt : j < cs.length := by rw [hl]; exact (List.getElem?_eq_some_iff.1 hj).1
    exact ⟨ts j, d1 j hlt, (d2 j at_ cs[j] hj (List.getElem?_eq_getElem hlt)).at⟩
  · rintro ⟨a, b, ts, m⟩
    exact ⟨a, b, ⟨ts, m.times, m.children⟩, m.body.ops, m.body.neg⟩

/-- the table of assignments that is stored -/
theorem stored_spec (hc : c.OK) {J : Rel α} (jw : J.WF) {order vars rest : List Variable} (hcols : J.cols = order ++ rest) (hsub : ∀ v ∈ vars, v ∈ order) {t : Rel α}
    (ht : t = if (order.filter fun v => decide (v ∉ vars)).isEmpty then J else c.single (order.filter fun v => decide (v ∉ vars)) J) :
    t.WF ∧ t.cols = J.cols ∧ (∀ σ, t.Holds σ → J.Holds σ) ∧ ∀ σ, J.Holds σ → ∃ τ : Variable → α, (∀ v ∈ vars, τ v = σ v) ∧ t.Holds τ := by
  by_cases he : (order.filter fun v => decide (v ∉ vars)).isEmpty = true
  · rw [if_pos he] at ht
    subst ht
    exact ⟨jw, rfl, fun _ h => h, fun σ h => ⟨σ, fun _ _ => rfl, h⟩⟩
  · rw [if_neg he] at ht
    have h1 := hc.cols (order.filter fun v => decide (v ∉ vars)) J
    have h2 := hc.sub (order.filter fun v => decide (v ∉ vars)) J
    rw [← ht] at h1 h2
    refine ⟨⟨by rw [h1]; exact jw.nodup, fun row hr => by rw [h1]; exact jw.len row (h2 row hr)⟩, h1, fun σ h => ?_, fun σ h => ?_⟩
    · unfold Rel.Holds at h ⊢
      rw [h1] at h
      exact h2 _ h
    · obtain ⟨τ, h3, h4⟩ := hc.kept (order.filter fun v => decide (v ∉ vars)) J jw σ h
      rw [← ht] at h4
      refine ⟨τ, fun v hv => h3 v ?_ ?_, h4⟩
      · rw [hcols]; exact List.mem_append_left _ (hsub v hv)
      · simp [hv]

theorem mem_project {t : Rel α} (tw : t.WF) {vars : List Variable} (hn : vars.Nodup) (hs : ∀ v ∈ vars, v ∈ t.cols) (row : List α) :
    row ∈ (Rel.project vars t).rows ↔ ∃ σ : Variable → α, vars.map σ = row ∧ t.Holds σ := by
  have pw := Rel.project_wf vars t hn
  have hp := Rel.project_holds vars t tw hs
  constructor
  · intro h
    have h1 := pw.holds_assign h
    obtain ⟨τ, h2, h3⟩ := (hp _).1 h1
    refine ⟨τ, ?_, h3⟩
    have h4 : vars.map τ = vars.map (assign vars row) := List.map_congr_left h2
    rw [h4]
    exact map_assign hn (pw.len _ h)
  · rintro ⟨σ, rfl, h⟩
    exact (hp σ).2 ⟨σ, fun _ _ => rfl, h⟩

/-- The tables that are stored for a query -/
inductive VOK (rules : List (NRule α)) (st : Eng α) : Query α → Tag → Nat → Valid α → Prop
  | leaf {qs : List (List α)} {p : Tag} {n : Nat} {l : List (Nat × List (List α))} : TabSpec rules st (.leaf qs) p n l → VOK rules st (.leaf qs) p n (.leaf l)
  | node {qs : List (List α)} {i k : Nat} {cs : List (Query α)} {p : Tag} {n n' : Nat} {l : List (Nat × List (List α))} {r : NRule α} {sh : Shape}
      {assign : List (Nat × Rel α)} {vs : List (Valid α)} :
      TabSpec rules st (.node qs i k cs) p n l → rules[i]? = some r → cs.length = r.positive.length → vs.length = r.positive.length →
      sh.disjoint = false → sh.order.Nodup → (∀ v, v ∈ sh.order ↔ v ∈ sh.head ∨ v ∈ atomVars r.positive) → (∀ a ∈ r.positive, a.terms.Nodup) →
      (∀ s, s < n → st.history[s]? = some i → s ≤ n') →
      (∀ s A, (s, A) ∈ assign → s < n ∧ ∀ row ∈ A.rows, ∃ σ ts, row.take sh.order.length = sh.order.map σ ∧ SatAt rules st (.node qs i k cs) p (sh.head.map σ) s ∧
        Match rules st i k cs p (sh.head.map σ) s r σ ts) →
      (∀ s row, s < n → SatAt rules st (.node qs i k cs) p row s → ∃ A, (s, A) ∈ assign ∧ ∃ row' ∈ A.rows, ∃ σ : Variable → α, row'.take sh.order.length = sh.order.map σ ∧ sh.head.map σ = row) →
      (∀ (j : Nat) (a : BodyAtom) (q : Query α) (v : Valid α), r.positive[j]? = some a → cs[j]? = some q → vs[j]? = some v → VOK rules st q a.pred n' v) →
      VOK rules st (.node qs i k cs) p n (.node l r sh assign vs)

theorem VOK.tab {q : Query α} {p : Tag} {n : Nat} {v : Valid α} (h : VOK rules st q p n v) : TabSpec rules st q p n v.tables := by
  cases h <;> assumption

theorem isSimple_iff (q : Query α) : q.isSimple = true ↔ q = .leaf [] := by
  cases q <;> simp [Query.isSimple]

theorem discarded_nil {r : NRule α} {a : BodyAtom} (h : ∀ v ∈ a.terms, 2 ≤ (allVars r).count v) : discarded r a = [] := by
  unfold discarded
  rw [List.map_eq_nil_iff, List.filter_eq_nil_iff]
  intro x hx
  have h1 : x.1 ∈ a.terms := by
    have := List.mem_map_of_mem (f := fun y : Variable × Nat => y.1) hx
    rwa [zipIdx_map_fst] at this
  have := h x.1 h1
  unfold isUnique
  simp only [beq_iff_eq]
  omega

/-- **The tables of a node**, if the tables of its children are right -/
theorem node_spec (hist : Hist rules arity edb st) (hc : c.OK) (h0 : ∀ i, st.history[0]? = some i → rules[i]? = none) {qs : List (List α)} {i k : Nat} {cs : List (Query α)} {p : Tag}
    {n n' : Nat} {r : NRule α} {hd : HeadAtom α} {vars : List Variable} (hr : rules[i]? = some r) (hk : r.head[k]? = some hd) (hp : hd.pred = p) (hro : RuleOK r arity)
    (hh : HeadGood r hd vars) (har : vars.length = arity hd.pred) (hna : r.containsAggregates = false) (hnd : (r.head.map (·.pred)).Nodup) {vs : List (Valid α)}
    (hvs : vs.length = r.positive.length) (hv : ∀ (j : Nat) (a : BodyAtom) (q : Query α) (v : Valid α), r.positive[j]? = some a → cs[j]? = some q → vs[j]? = some v → VOK rules st q a.pred n' v)
    (hl : cs.length = r.positive.length) (hqs : qs = [] ∨ ∃ q ∈ cs, q ≠ .leaf []) (hn : ∀ s, s < n → st.history[s]? = some i → s ≤ n') :
    ∃ parts, (((stepTables st p n).filter fun x => decide (st.history[x.1]? = some i)).mapM fun x => do
        let t ← assignments c st.source r (shape r hd []) qs x.2 (bodiesAt r vs x.1) x.1
        some (x, t)) = some parts ∧
      VOK rules st (.node qs i k cs) p n (.node (parts.filterMap fun y =>
        if (shape r hd []).disjoint || (ruleIsSimple rules r && cs.all Query.isSimple) then some y.1
        else let rows := (Rel.project (shape r hd []).head y.2).rows; if rows = [] then none else some (y.1.1, rows))
        r (shape r hd []) (parts.filterMap fun y => if y.2.rows = [] then none else some (y.1.1, y.2)) vs) := by
  have hct : ChildTabs rules st r cs vs n' := ⟨hvs, fun j a q v a1 a2 a3 => (hv j a q v a1 a2 a3).tab⟩
  have hsh := shape_eq hh
  have hhead : (shape r hd []).head = vars := by rw [hsh]
  have hord : ∀ v, v ∈ (shape r hd []).order ↔ v ∈ vars ∨ v ∈ atomVars r.positive := by
    intro v
    rw [hsh]
    simp only [List.mem_append, mem_restrictOrder, List.mem_filter, decide_eq_true_eq]
    constructor
    · rintro (h | h)
      · exact .inr h.2
      · exact .inl h.1
    · intro h
      by_cases hv : v ∈ atomVars r.positive
      · exact .inl ⟨hro.orderCov v hv, hv⟩
      · exact .inr ⟨h.resolve_right hv, hv⟩
  have hon : (shape r hd []).order.Nodup := by
    rw [hsh]
    refine List.nodup_append.2 ⟨hro.orderNodup.filter _, hh.nodup.filter _, ?_⟩
    intro a h1 b h2 hab
    subst hab
    rw [mem_restrictOrder] at h1
    simp only [List.mem_filter, decide_eq_true_eq] at h2
    exact h2.2 h1.2
  -- the assignments of each step
  have hstep : ∀ x ∈ (stepTables st p n).filter fun x => decide (st.history[x.1]? = some i), ∃ t,
      assignments c st.source r (shape r hd []) qs x.2 (bodiesAt r vs x.1) x.1 = some t ∧ t.WF ∧ (∃ rest, t.cols = (shape r hd []).order ++ rest) ∧
      (∀ σ, t.Holds σ → SatAt rules st (.node qs i k cs) p (vars.map σ) x.1 ∧ ∃ ts, Match rules st i k cs p (vars.map σ) x.1 r σ ts) ∧
      ∀ row, SatAt rules st (.node qs i k cs) p row x.1 → ∃ τ : Variable → α, vars.map τ = row ∧ t.Holds τ := by
    intro x hx
    simp only [List.mem_filter, decide_eq_true_eq] at hx
    have hz : x.1 ≠ 0 := by
      intro hz
      have := hx.2
      rw [hz] at this
      rw [h0 i this] at hr; cases hr
    obtain ⟨J, e1, e2, ⟨rest, e3⟩, e4⟩ := node_assignments (c := c) (qs := qs) hist hr hk hp hro hh har hct hl hx.1 hx.2 hz (hn x.1 (stepTables_lt hist.ok hx.1).1 hx.2)
    obtain ⟨t1, t2, t3, t4⟩ := stored_spec hc e2 e3 (fun v hv => (hord v).2 (.inl hv)) rfl
    refine ⟨_, e1, t1, ⟨rest, by rw [t2, e3]⟩, fun σ hσ => ?_, fun row hrow => ?_⟩
    · obtain ⟨a, b, ts, m⟩ := (e4 σ).1 (t3 σ hσ)
      exact ⟨.of_match a b m, ts, m⟩
    · obtain ⟨a, b, r', σ, ts, m⟩ := satAt_node.1 hrow
      have hrr : r' = r := by have := m.rule; rw [hr] at this; cases this; rfl
      subst hrr
      have hrow' : vars.map σ = row := by
        obtain ⟨hd', m1, -, m3⟩ := m.head
        rw [hk] at m1; cases m1
        rw [← m3, inst_eq hh.terms]
      subst hrow'
      obtain ⟨τ, h5, h6⟩ := t4 σ ((e4 σ).2 ⟨a, b, ts, m⟩)
      exact ⟨τ, List.map_congr_left h5, h6⟩
  haveI : Nonempty (Rel α) := ⟨⟨[], []⟩⟩
  choose! T hT using hstep
  set L := (stepTables st p n).filter fun x => decide (st.history[x.1]? = some i) with hL
  refine ⟨L.map fun x => (x, T x), ?_, ?_⟩
  · refine TreeQ.mapM_map (f := _) fun x hx => ?_
    rw [(hT x hx).1]
    rfl
  have hLs : (L.map (·.1)).Pairwise (· < ·) := (stepTables_steps hist.ok p n).sublist (List.filter_sublist.map _)
  have hLm : ∀ x ∈ L, x ∈ stepTables st p n ∧ st.history[x.1]? = some i := by
    intro x hx; rw [hL] at hx; simpa [List.mem_filter] using hx
  have hsat : ∀ s row, s < n → SatAt rules st (.node qs i k cs) p row s → ∃ x ∈ L, x.1 = s ∧ row ∈ x.2 := by
    intro s row hs hrow
    obtain ⟨a, -, r', σ, ts, m⟩ := satAt_node.1 hrow
    obtain ⟨rows, h1, h2⟩ := (mem_stepTables hist.ok p n s row).2 ⟨hs, a⟩
    exact ⟨(s, rows), by rw [hL]; simp [List.mem_filter, h1, m.step], rfl, h2⟩
  refine .node (n' := n') ?_ hr hl hvs (by rw [hsh]) hon (by rw [hhead]; exact hord) hro.posNodup hn ?_ ?_ hv
  · -- the facts
    rw [List.filterMap_map, hhead, show (shape r hd []).disjoint = false by rw [hsh], Bool.false_or]
    by_cases hs : (ruleIsSimple rules r && cs.all Query.isSimple) = true
    · have he : L.filterMap ((fun y : (Nat × List (List α)) × Rel α => if (ruleIsSimple rules r && cs.all Query.isSimple) = true then some y.1
          else let rows := (Rel.project vars y.2).rows; if rows = [] then none else some (y.1.1, rows)) ∘ fun x => (x, T x)) = L := by
        conv_rhs => rw [← List.filterMap_some (l := L)]
        refine List.filterMap_congr fun x _ => ?_
        simp only [Function.comp, hs, if_true]
      rw [he]
      refine ⟨hLs, fun s row => ⟨?_, ?_⟩⟩
      · rintro ⟨rows, h1, h2⟩
        obtain ⟨h3, h4⟩ := hLm _ h1
        have hlt := stepTables_lt hist.ok h3
        refine ⟨hlt.1, ?_⟩
        have hat : st.At p s row := (mem_stepTable hist.ok h3 row).1 h2
        have hz : s ≠ 0 := by
          intro hz; rw [hz] at h4; rw [h0 i h4] at hr; cases hr
        obtain ⟨i', r', g1, g2, g3⟩ := hist.src p s row hat hz
        have h4' : st.history[s]? = some i := h4
        rw [g1] at h4'; cases h4'
        rw [hr] at g2; cases g2
        rw [Bool.and_eq_true, List.all_eq_true] at hs
        have hlv : ∀ q ∈ cs, q = .leaf [] := fun q hq => (isSimple_iff q).1 (hs.2 q hq)
        have hq0 : qs = [] := by
          rcases hqs with h | ⟨q, hq, hne⟩
          · exact h
          · exact absurd (hlv q hq) hne
        cases g3 with
        | @plain σ h' k' hb hk' _ =>
          have hkk : h' = hd := by
            obtain ⟨l1, e1⟩ := List.getElem?_eq_some_iff.1 hk
            obtain ⟨l2, e2⟩ := List.getElem?_eq_some_iff.1 hk'
            have hpp : (r.head.map (·.pred))[k]'(by simpa using l1) = (r.head.map (·.pred))[k']'(by simpa using l2) := by
              simp only [List.getElem_map, e1, e2]
              exact hp
            have := (List.Nodup.getElem_inj_iff hnd).1 hpp
            subst this
            rw [e1] at e2; exact e2.symm
          subst hkk
          have hex : ∀ j : Nat, ∃ t : Nat, ∀ (a : BodyAtom), r.positive[j]? = some a → t < s ∧ st.At a.pred t (a.terms.map σ) := by
            intro j
            by_cases hj : j < r.positive.length
            · obtain ⟨t, h5, h6⟩ := hb.pos _ (List.getElem_mem hj)
              refine ⟨t, fun a ha => ?_⟩
              rw [List.getElem?_eq_getElem hj] at ha
              cases ha; exact ⟨h5, h6⟩
            · refine ⟨0, fun a ha => ?_⟩
              exact absurd (List.getElem?_eq_some_iff.1 ha).1 hj
          choose ts hts using hex
          refine .of_match hat (.inl hq0) (r := r) (σ := σ) (ts := ts) ⟨g1, hr, ⟨h', hk, hp, rfl⟩, hb, hl, fun j hj => ?_, fun j a q h5 h6 => ?_⟩
          · exact (hts j _ (List.getElem?_eq_getElem (by omega))).1
          · rw [hlv q (List.mem_of_getElem? h6)]
            exact .leaf (hts j a h5).2 (.inl rfl)
        | agg _ hagg _ =>
          unfold NRule.containsAggregates at hna
          rw [hagg] at hna; simp at hna
      · rintro ⟨h1, h2⟩
        obtain ⟨x, h3, rfl, h4⟩ := hsat s row h1 h2
        exact ⟨x.2, h3, h4⟩
    · have hfm : ∀ x ∈ L, ((fun y : (Nat × List (List α)) × Rel α => if (ruleIsSimple rules r && cs.all Query.isSimple) = true then some y.1
          else let rows := (Rel.project vars y.2).rows; if rows = [] then none else some (y.1.1, rows)) ∘ fun x => (x, T x)) x =
          if (Rel.project vars (T x)).rows = [] then none else some (x.1, (Rel.project vars (T x)).rows) := by
        intro x _
        simp only [Function.comp, hs]
        simp
      rw [List.filterMap_congr hfm]
      have hsl : ∀ l : List (Nat × List (List α)), ((l.filterMap fun x => if (Rel.project vars (T x)).rows = [] then none else some (x.1, (Rel.project vars (T x)).rows)).map (·.1)).Sublist
          (l.map (·.1)) := by
        intro l
        induction l with
        | nil => simp
        | cons x l ih =>
          rw [List.filterMap_cons]
          by_cases he : (Rel.project vars (T x)).rows = []
          · simp only [he, if_true, List.map_cons]; exact ih.cons _
          · simp only [he, if_false, List.map_cons]; exact ih.cons_cons _
      have hpm : ∀ x ∈ L, ∀ row, row ∈ (Rel.project vars (T x)).rows ↔ SatAt rules st (.node qs i k cs) p row x.1 := by
        intro x hx row
        obtain ⟨-, w1, ⟨rest, w2⟩, w3, w4⟩ := hT x hx
        rw [mem_project w1 hh.nodup (fun v hv => by rw [w2]; exact List.mem_append_left _ ((hord v).2 (.inl hv)))]
        constructor
        · rintro ⟨σ, rfl, h⟩; exact (w3 σ h).1
        · intro h; exact w4 row h
      refine ⟨hLs.sublist (hsl L), fun s row => ⟨?_, ?_⟩⟩
      · rintro ⟨rows, h1, h2⟩
        obtain ⟨x, h3, h4⟩ := List.mem_filterMap.1 h1
        split at h4
        · cases h4
        · simp only [Option.some.injEq, Prod.mk.injEq] at h4
          obtain ⟨rfl, rfl⟩ := h4
          exact ⟨(stepTables_lt hist.ok (hLm x h3).1).1, (hpm x h3 row).1 h2⟩
      · rintro ⟨h1, h2⟩
        obtain ⟨x, h3, rfl, -⟩ := hsat s row h1 h2
        have h4 := (hpm x h3 row).2 h2
        refine ⟨_, List.mem_filterMap.2 ⟨x, h3, ?_⟩, h4⟩
        rw [if_neg]
        intro hc; rw [hc] at h4; cases h4
  · -- stored assignments are derivations
    intro s A hA
    rw [List.filterMap_map] at hA
    obtain ⟨x, h1, h2⟩ := List.mem_filterMap.1 hA
    simp only [Function.comp] at h2
    split at h2
    · cases h2
    · simp only [Option.some.injEq, Prod.mk.injEq] at h2
      obtain ⟨rfl, rfl⟩ := h2
      obtain ⟨-, w1, ⟨rest, w2⟩, w3, -⟩ := hT x h1
      refine ⟨(stepTables_lt hist.ok (hLm x h1).1).1, fun row hrow => ?_⟩
      have h3 := w1.holds_assign hrow
      obtain ⟨h4, ts, h5⟩ := w3 _ h3
      refine ⟨assign (T x).cols row, ts, ?_, by rw [hhead]; exact h4, by rw [hhead]; exact h5⟩
      have h6 : (T x).cols.map (assign (T x).cols row) = row := map_assign w1.nodup (w1.len _ hrow)
      conv_lhs => rw [← h6, w2, List.map_append]
      rw [← w2, List.take_append_of_le_length (by simp), List.take_of_length_le (by simp)]
  · -- each fact has a stored assignment
    intro s row hs hrow
    obtain ⟨x, h1, rfl, -⟩ := hsat s row hs hrow
    obtain ⟨-, w1, ⟨rest, w2⟩, -, w4⟩ := hT x h1
    obtain ⟨τ, h2, h3⟩ := w4 row hrow
    refine ⟨T x, ?_, _, h3, τ, ?_, by rw [hhead]; exact h2⟩
    · rw [List.filterMap_map]
      refine List.mem_filterMap.2 ⟨x, h1, ?_⟩
      simp only [Function.comp]
      rw [if_neg]
      intro hc
      unfold Rel.Holds at h3
      rw [hc] at h3; cases h3
    · rw [w2, List.map_append, List.take_append_of_le_length (by simp), List.take_of_length_le (by simp)]

theorem good_safe (hho : HeadOK r arity) (hna : r.containsAggregates = false) {k : Nat} {hd : HeadAtom α} {vars : List Variable} (hk : r.head[k]? = some hd)
    (ht : hd.terms = vars.map Primitive.var) (hu : ∀ v ∈ vars, v.isExistential = false) : ∀ v ∈ vars, SafeVar r.positive r.operations v := by
  intro v hv
  refine hho.headSafe k hd hk ?_ v ?_ (hu v hv)
  · intro a k' hagg
    unfold NRule.containsAggregates at hna
    rw [hagg] at hna; simp at hna
  · unfold HeadAtom.vars
    rw [ht]
    exact List.mem_filterMap.2 ⟨.var v, List.mem_map.2 ⟨v, hv, rfl⟩, rfl⟩

mutual
/-- **The tables of all nodes** -/
theorem validNode_spec {cfgs : List RuleCfg} (hp : ProgOK rules cfgs arity) (hna : ∀ r ∈ rules, r.containsAggregates = false) (hist : Hist rules arity edb st) (hc : c.OK)
    (h0 : ∀ i, st.history[0]? = some i → rules[i]? = none) :
    ∀ (q : Query α) (p : Tag) (n : Nat), Good rules q p → ∃ v, validNode c rules arity st q p [] n = some v ∧ VOK rules st q p n v
  | .leaf qs, p, n, _ => ⟨_, by rw [validNode], .leaf (leaf_spec hist.ok qs p n (arity p))⟩
  | .node qs i k cs, p, n, hg => by
    cases hg with
    | @node _ _ _ _ _ r hd vars hr hk hpr ht hn hne hu hnd hl htw hqs hgs =>
      have hrm := List.mem_of_getElem? hr
      obtain ⟨hro, hho, -⟩ := hp.rule r hrm
      have hsafe := good_safe hho (hna r hrm) hk ht hu
      have hh : HeadGood r hd vars := ⟨ht, hn, hne, hu, hsafe⟩
      have har : vars.length = arity hd.pred := by
        have := hho.headArity hd (List.mem_of_getElem? hk)
        rwa [ht, List.length_map] at this
      obtain ⟨vs, h1, h2, h3⟩ := validChildren_spec hp hna hist hc h0 r cs r.positive (nextStep st i n) hl htw hgs
      obtain ⟨parts, h4, h5⟩ := node_spec (c := c) hist hc h0 hr hk hpr hro hh har (hna r hrm) hnd h2 h3 hl hqs (n := n) fun s hs hi => nextStep_ge st hs hi
      refine ⟨_, ?_, h5⟩
      rw [validNode]
      simp only [hr, hk, h1, Option.bind_eq_bind, Option.bind_some]
      unfold bodiesAt at h4
      simp only [Option.bind_eq_bind] at h4
      rw [h4]
      rfl
theorem validChildren_spec {cfgs : List RuleCfg} (hp : ProgOK rules cfgs arity) (hna : ∀ r ∈ rules, r.containsAggregates = false) (hist : Hist rules arity edb st) (hc : c.OK)
    (h0 : ∀ i, st.history[0]? = some i → rules[i]? = none) (r : NRule α) :
    ∀ (cs : List (Query α)) (as : List BodyAtom) (n : Nat), cs.length = as.length → (∀ a ∈ as, ∀ v ∈ a.terms, 2 ≤ (allVars r).count v) →
      (∀ (j : Nat) (a : BodyAtom) (q : Query α), as[j]? = some a → cs[j]? = some q → Good rules q a.pred) →
      ∃ vs, validChildren c rules arity st r as cs n = some vs ∧ vs.length = as.length ∧
        ∀ (j : Nat) (a : BodyAtom) (q : Query α) (v : Valid α), as[j]? = some a → cs[j]? = some q → vs[j]? = some v → VOK rules st q a.pred n v
  | [], [], n, _, _, _ => ⟨[], by rw [validChildren]; intros; simp_all, rfl, by simp⟩
  | [], _ :: _, _, h, _, _ => by simp at h
  | _ :: _, [], _, h, _, _ => by simp at h
  | q :: cs, a :: as, n, hl, htw, hg => by
    obtain ⟨v, h1, h2⟩ := validNode_spec hp hna hist hc h0 q a.pred n (hg 0 a q rfl rfl)
    obtain ⟨vs, h3, h4, h5⟩ := validChildren_spec hp hna hist hc h0 r cs as n (by simpa using hl) (fun b hb => htw b (by simp [hb]))
      (fun j b q' hb hq => hg (j + 1) b q' (by simpa using hb) (by simpa using hq))
    refine ⟨v :: vs, ?_, by simp [h4], ?_⟩
    · rw [validChildren, discarded_nil (htw a (by simp)), h1, h3]; rfl
    · intro j b q' v' g1 g2 g3
      match j with
      | 0 =>
        simp only [List.getElem?_cons_zero, Option.some.injEq] at g1 g2 g3
        subst g1 g2 g3; exact h2
      | j + 1 => exact h5 j b q' v' (by simpa using g1) (by simpa using g2) (by simpa using g3)
end

/-! ## The facts that are shown -/

theorem consolidate_mem {l : List (Nat × List (List α))} {t : List (List α)} (h : consolidate l = some t) (row : List α) : row ∈ t ↔ ∃ s rows, (s, rows) ∈ l ∧ row ∈ rows := by
  unfold consolidate at h
  split at h
  · cases h
  · simp only [Option.some.injEq] at h
    subst h
    simp only [List.mem_flatMap]
    exact ⟨fun ⟨x, h1, h2⟩ => ⟨x.1, x.2, h1, h2⟩, fun ⟨s, rows, h1, h2⟩ => ⟨_, h1, h2⟩⟩

/-- the table of a child -/
theorem childResult_spec {sh : Shape} {result : List (List α)} {assign : List (Nat × Rel α)} {a : BodyAtom} {valid : List (Nat × List (List α))} {r : NRule α}
    (hd : sh.disjoint = false) (hon : sh.order.Nodup) (hord : ∀ v, v ∈ sh.order ↔ v ∈ sh.head ∨ v ∈ atomVars r.positive) (ha : a ∈ r.positive) (han : a.terms.Nodup) {σ₀ : Variable → α}
    {s₀ : Nat} {A₀ : Rel α} (hA : (s₀, A₀) ∈ assign) {row₀ : List α} (hrow : row₀ ∈ A₀.rows) (hσ : row₀.take sh.order.length = sh.order.map σ₀)
    (hres : sh.head.map σ₀ ∈ result) (hval : ∃ s rows, (s, rows) ∈ valid ∧ a.terms.map σ₀ ∈ rows) :
    ∃ t, childResult sh result assign a valid = some t ∧ ∀ row, row ∈ t ↔ ∃ (σ : Variable → α) (s : Nat) (A : Rel α) (row' : List α), (s, A) ∈ assign ∧ row' ∈ A.rows ∧
      row'.take sh.order.length = sh.order.map σ ∧ sh.head.map σ ∈ result ∧ (∃ s rows, (s, rows) ∈ valid ∧ a.terms.map σ ∈ rows) ∧ a.terms.map σ = row := by
  have hne : valid.isEmpty = false := by
    obtain ⟨s, rows, h1, -⟩ := hval
    cases valid with
    | nil => cases h1
    | cons => rfl
  have hae : assign.isEmpty = false := by
    cases assign with
    | nil => cases hA
    | cons => rfl
  obtain ⟨V, hV⟩ : ∃ V, consolidate valid = some V := ⟨_, by unfold consolidate; rw [hne]; rfl⟩
  have hVm := consolidate_mem hV
  set rs : List (Rel α) := [⟨sh.head, result⟩, ⟨sh.order, assign.flatMap fun x => x.2.rows.map (·.take sh.order.length)⟩, ⟨a.terms, V⟩] with hrs
  have hao : ∀ v ∈ a.terms, v ∈ sh.order := fun v hv => (hord v).2 (.inr (List.mem_flatMap.2 ⟨a, ha, hv⟩))
  have jw : (Rel.join sh.order rs).WF := Rel.join_wf _ _ hon
  have jh : ∀ σ, (Rel.join sh.order rs).Holds σ ↔ sh.head.map σ ∈ result ∧ (∃ x ∈ assign, ∃ row' ∈ x.2.rows, row'.take sh.order.length = sh.order.map σ) ∧ a.terms.map σ ∈ V := by
    intro σ
    rw [Rel.join_holds sh.order rs ?_ ?_ σ]
    · rw [hrs]
      simp only [List.mem_cons, List.not_mem_nil, or_false, forall_eq_or_imp, forall_eq, Rel.Holds, List.mem_flatMap, List.mem_map]
    · intro x hx v hv
      rw [hrs] at hx
      simp only [List.mem_cons, List.not_mem_nil, or_false] at hx
      rcases hx with rfl | rfl | rfl
      · exact (hord v).2 (.inl hv)
      · exact hv
      · exact hao v hv
    · intro v hv
      exact ⟨⟨sh.order, assign.flatMap fun x => x.2.rows.map (·.take sh.order.length)⟩, by rw [hrs]; simp, hv⟩
  have key : ∀ row, row ∈ (Rel.project a.terms (Rel.join sh.order rs)).rows ↔ ∃ (σ : Variable → α) (s : Nat) (A : Rel α) (row' : List α), (s, A) ∈ assign ∧ row' ∈ A.rows ∧
      row'.take sh.order.length = sh.order.map σ ∧ sh.head.map σ ∈ result ∧ (∃ s rows, (s, rows) ∈ valid ∧ a.terms.map σ ∈ rows) ∧ a.terms.map σ = row := by
    intro row
    rw [mem_project jw han hao]
    constructor
    · rintro ⟨σ, rfl, h⟩
      obtain ⟨h1, ⟨x, h2, row', h3, h4⟩, h5⟩ := (jh σ).1 h
      exact ⟨σ, x.1, x.2, row', h2, h3, h4, h1, (hVm _).1 h5, rfl⟩
    · rintro ⟨σ, s, A, row', h2, h3, h4, h1, h5, h6⟩
      exact ⟨σ, h6, (jh σ).2 ⟨h1, ⟨_, h2, row', h3, h4⟩, (hVm _).2 h5⟩⟩
  refine ⟨_, ?_, key⟩
  unfold childResult
  simp only [hd, hae, Bool.false_eq_true, if_false, hV, Option.bind_some]
  rw [if_neg]
  intro hc
  have := (key (a.terms.map σ₀)).2 ⟨σ₀, s₀, A₀, row₀, hA, hrow, hσ, hres, hval, rfl⟩
  rw [hc] at this; cases this

theorem Explained.mono {out out' : List (List Nat × List (List α))} (hm : ∀ x ∈ out, x ∈ out') {addr : List Nat} {q : Query α} {p : Tag} {row : List α} {s : Nat}
    (h : Explained rules st out addr q p row s) : Explained rules st out' addr q p row s := by
  cases q with
  | leaf => trivial
  | node qs i k cs =>
    obtain ⟨r, σ, ts, h1, h2⟩ := h
    refine ⟨r, σ, ts, h1, fun j a ha => ?_⟩
    obtain ⟨rows, h3, h4⟩ := h2 j a ha
    exact ⟨rows, hm _ h3, h4⟩

/-- All facts that are shown occur at their addresses and are explained. -/
def AllShown (rules : List (NRule α)) (st : Eng α) (q : Query α) (p : Tag) (out all : List (List Nat × List (List α))) : Prop :=
  ∀ x ∈ out, x.2 ≠ [] ∧ ∃ q' p', ∀ row ∈ x.2, ∃ s, Occurs rules st q p x.1 q' p' row s ∧ Explained rules st all x.1 q' p' row s

theorem AllShown.mono {q : Query α} {p : Tag} {out all all' : List (List Nat × List (List α))} (hm : ∀ x ∈ all, x ∈ all') (h : AllShown rules st q p out all) :
    AllShown rules st q p out all' := by
  intro x hx
  obtain ⟨h0, q', p', h1⟩ := h x hx
  refine ⟨h0, q', p', fun row hr => ?_⟩
  obtain ⟨s, h2, h3⟩ := h1 row hr
  exact ⟨s, h2, h3.mono hm⟩

theorem Occurs.satAt {q : Query α} {p : Tag} {addr : List Nat} {q' : Query α} {p' : Tag} {row : List α} {s : Nat} (h : Occurs rules st q p addr q' p' row s) :
    SatAt rules st q' p' row s := by
  cases h with
  | root h => exact h
  | child _ hm ha hq => exact hm.children _ _ _ ha hq

/-- what is known about an inner node -/
structure NodeData (rules : List (NRule α)) (st : Eng α) (qs : List (List α)) (i k : Nat) (cs : List (Query α)) (p : Tag) (n n' : Nat) (r : NRule α) (sh : Shape)
    (asg : List (Nat × Rel α)) : Prop where
  rule : rules[i]? = some r
  disjoint : sh.disjoint = false
  nodup : sh.order.Nodup
  order : ∀ v, v ∈ sh.order ↔ v ∈ sh.head ∨ v ∈ atomVars r.positive
  atoms : ∀ a ∈ r.positive, a.terms.Nodup
  next : ∀ s, s < n → st.history[s]? = some i → s ≤ n'
  stored : ∀ s A, (s, A) ∈ asg → s < n ∧ ∀ row ∈ A.rows, ∃ σ ts, row.take sh.order.length = sh.order.map σ ∧ SatAt rules st (.node qs i k cs) p (sh.head.map σ) s ∧
    Match rules st i k cs p (sh.head.map σ) s r σ ts

theorem map_order {sh : Shape} {σ σ' : Variable → α} (h : sh.order.map σ = sh.order.map σ') {l : List Variable} (hl : ∀ v ∈ l, v ∈ sh.order) : l.map σ = l.map σ' :=
  List.map_congr_left fun v hv => List.map_eq_map_iff.1 h v (hl v hv)

mutual
theorem filterNode_spec (hok : st.OK arity) (q : Query α) (p : Tag) : ∀ (v : Valid α) (q' : Query α) (p' : Tag) (n : Nat) (addr : List Nat) (result : List (List α)),
    VOK rules st q' p' n v → result ≠ [] → (∀ row ∈ result, ∃ s, s < n ∧ Occurs rules st q p addr q' p' row s) →
    (filterNode addr result v).2 = true ∧ AllShown rules st q p (filterNode addr result v).1 (filterNode addr result v).1 ∧
      ∀ row ∈ result, ∀ s, Occurs rules st q p addr q' p' row s → Explained rules st (filterNode addr result v).1 addr q' p' row s
  | .leaf l, q', p', n, addr, result, hv, hne, hocc => by
    rw [filterNode]
    refine ⟨rfl, fun x hx => (by cases hx), fun row _ s _ => ?_⟩
    cases hv
    trivial
  | .node l r sh asg vs, q', p', n, addr, result, hv, hne, hocc => by
    cases hv with
    | @node qs i k cs _ _ n' _ _ _ _ _ htab hr hl hvs hdis hon hord hat hn hst hsup hch =>
      have D : NodeData rules st qs i k cs p' n n' r sh asg := ⟨hr, hdis, hon, hord, hat, hn, hst⟩
      obtain ⟨row₀, hrow₀⟩ := List.exists_mem_of_ne_nil _ hne
      obtain ⟨s₀, hs₀, ho₀⟩ := hocc row₀ hrow₀
      obtain ⟨A₀, hA₀, r₀, hr₀, σ₀, h1, h2⟩ := hsup s₀ row₀ hs₀ ho₀.satAt
      obtain ⟨e1, e2, e3⟩ := filterChildren_spec hok q p D hocc ⟨s₀, A₀, r₀, σ₀, hA₀, hr₀, h1, h2 ▸ hrow₀⟩ vs r.positive cs 0 hvs.symm (hl.trans hvs.symm)
        (fun j a h => by rwa [Nat.zero_add]) (fun j a h => by rwa [Nat.zero_add]) hch
      rw [filterNode]
      refine ⟨e1, e2, fun row hrow s hs => ?_⟩
      obtain ⟨s', hs', ho'⟩ := hocc row hrow
      have hss : s' = s := hok.unique _ _ _ _ ho'.satAt.at hs.satAt.at
      subst hss
      obtain ⟨A, hA, row', hr', σ, h3, h4⟩ := hsup s' row hs' hs.satAt
      obtain ⟨σ', ts, h5, h6, h7⟩ := (hst s' A hA).2 row' hr'
      have h8 : sh.order.map σ' = sh.order.map σ := by rw [← h5, ← h3]
      have h9 : sh.head.map σ' = row := by rw [← h4]; exact map_order h8 fun v hv => (hord v).2 (.inl hv)
      refine ⟨r, σ', ts, h9 ▸ h7, fun j a ha => ?_⟩
      obtain ⟨t, h10, h11⟩ := e3 j a ha
      rw [Nat.zero_add] at h10
      exact ⟨t, h10, h11 s' A row' σ' hA hr' h5 (by rw [h9]; exact hrow)⟩
theorem filterChildren_spec (hok : st.OK arity) (q : Query α) (p : Tag) {qs : List (List α)} {i k : Nat} {cs : List (Query α)} {p' : Tag} {n n' : Nat} {r : NRule α} {sh : Shape}
    {asg : List (Nat × Rel α)} (D : NodeData rules st qs i k cs p' n n' r sh asg) {addr : List Nat} {result : List (List α)}
    (hocc : ∀ row ∈ result, ∃ s, s < n ∧ Occurs rules st q p addr (.node qs i k cs) p' row s)
    (hwit : ∃ s A row, ∃ σ : Variable → α, (s, A) ∈ asg ∧ row ∈ A.rows ∧ row.take sh.order.length = sh.order.map σ ∧ sh.head.map σ ∈ result) :
    ∀ (vs : List (Valid α)) (as : List BodyAtom) (cs' : List (Query α)) (j : Nat), as.length = vs.length → cs'.length = vs.length →
      (∀ (j' : Nat) (a : BodyAtom), as[j']? = some a → r.positive[j + j']? = some a) → (∀ (j' : Nat) (c : Query α), cs'[j']? = some c → cs[j + j']? = some c) →
      (∀ (j' : Nat) (a : BodyAtom) (c : Query α) (v : Valid α), as[j']? = some a → cs'[j']? = some c → vs[j']? = some v → VOK rules st c a.pred n' v) →
      (filterChildren addr result sh asg as vs j).2 = true ∧ AllShown rules st q p (filterChildren addr result sh asg as vs j).1 (filterChildren addr result sh asg as vs j).1 ∧
      ∀ (j' : Nat) (a : BodyAtom), as[j']? = some a → ∃ t, (addr ++ [j + j'], t) ∈ (filterChildren addr result sh asg as vs j).1 ∧
        ∀ (s : Nat) (A : Rel α) (row : List α) (σ : Variable → α), (s, A) ∈ asg → row ∈ A.rows → row.take sh.order.length = sh.order.map σ → sh.head.map σ ∈ result → a.terms.map σ ∈ t
  | [], [], _, j, _, _, _, _, _ => by
    rw [filterChildren]
    · exact ⟨rfl, fun x hx => (by cases hx), by simp⟩
    · intros; simp_all
  | [], _ :: _, _, _, h, _, _, _, _ => by simp at h
  | _ :: _, [], _, _, h, _, _, _, _ => by simp at h
  | _ :: _, _ :: _, [], _, _, h, _, _, _ => by simp at h
  | v :: vs, a :: as, c :: cs', j, hl1, hl2, has, hcs, hch => by
    have hv := hch 0 a c v rfl rfl rfl
    have ha0 : r.positive[j]? = some a := by have := has 0 a rfl; rwa [Nat.add_zero] at this
    have hc0 : cs[j]? = some c := by have := hcs 0 c rfl; rwa [Nat.add_zero] at this
    have ham := List.mem_of_getElem? ha0
    have hao : ∀ v ∈ a.terms, v ∈ sh.order := fun v hv => (D.order v).2 (.inr (List.mem_flatMap.2 ⟨a, ham, hv⟩))
    have hho : ∀ v ∈ sh.head, v ∈ sh.order := fun v hv => (D.order v).2 (.inl hv)
    -- the facts of a stored assignment
    have hst : ∀ (s : Nat) (A : Rel α) (row : List α) (σ : Variable → α), (s, A) ∈ asg → row ∈ A.rows → row.take sh.order.length = sh.order.map σ → sh.head.map σ ∈ result →
        ∃ t, t < n' ∧ SatAt rules st c a.pred (a.terms.map σ) t ∧ Occurs rules st q p (addr ++ [j]) c a.pred (a.terms.map σ) t := by
      intro s A row σ hA hrow hσ hres
      obtain ⟨hsn, hsa⟩ := D.stored s A hA
      obtain ⟨σ', ts, h1, h2, h3⟩ := hsa row hrow
      have h4 : sh.order.map σ' = sh.order.map σ := by rw [← h1, ← hσ]
      have h5 := map_order h4 hao
      have h6 := map_order h4 hho
      have hjl : j < cs.length := (List.getElem?_eq_some_iff.1 hc0).1
      have h7 := h3.times j hjl
      have h8 := D.next s hsn h3.step
      obtain ⟨s', -, ho⟩ := hocc _ hres
      have hss : s' = s := hok.unique _ _ _ _ ho.satAt.at (h6 ▸ h2.at)
      subst hss
      refine ⟨ts j, by omega, h5 ▸ h3.children j a c ha0 hc0, ?_⟩
      rw [← h5]
      exact .child ho (h6 ▸ h3) ha0 hc0
    have hval : ∀ (s : Nat) (A : Rel α) (row : List α) (σ : Variable → α), (s, A) ∈ asg → row ∈ A.rows → row.take sh.order.length = sh.order.map σ → sh.head.map σ ∈ result →
        ∃ s rows, (s, rows) ∈ v.tables ∧ a.terms.map σ ∈ rows := by
      intro s A row σ hA hrow hσ hres
      obtain ⟨t, h1, h2, -⟩ := hst s A row σ hA hrow hσ hres
      obtain ⟨rows, h3, h4⟩ := (hv.tab.rows t _).2 ⟨h1, h2⟩
      exact ⟨t, rows, h3, h4⟩
    obtain ⟨s₀, A₀, row₀, σ₀, w1, w2, w3, w4⟩ := hwit
    obtain ⟨t, ht, htm⟩ := childResult_spec (r := r) D.disjoint D.nodup D.order ham (D.atoms a ham) w1 w2 w3 w4 (hval s₀ A₀ row₀ σ₀ w1 w2 w3 w4)
    have hin : ∀ (s : Nat) (A : Rel α) (row : List α) (σ : Variable → α), (s, A) ∈ asg → row ∈ A.rows → row.take sh.order.length = sh.order.map σ → sh.head.map σ ∈ result →
        a.terms.map σ ∈ t := fun s A row σ hA hrow hσ hres => (htm _).2 ⟨σ, s, A, row, hA, hrow, hσ, hres, hval s A row σ hA hrow hσ hres, rfl⟩
    have htne : t ≠ [] := List.ne_nil_of_mem (hin s₀ A₀ row₀ σ₀ w1 w2 w3 w4)
    have htocc : ∀ row ∈ t, ∃ s, s < n' ∧ Occurs rules st q p (addr ++ [j]) c a.pred row s := by
      intro row hrow
      obtain ⟨σ, s, A, row', h1, h2, h3, h4, -, h6⟩ := (htm row).1 hrow
      obtain ⟨u, h7, -, h8⟩ := hst s A row' σ h1 h2 h3 h4
      exact ⟨u, h7, h6 ▸ h8⟩
    obtain ⟨e1, e2, e3⟩ := filterNode_spec hok q p v c a.pred n' (addr ++ [j]) t hv htne htocc
    obtain ⟨f1, f2, f3⟩ := filterChildren_spec hok q p D hocc ⟨s₀, A₀, row₀, σ₀, w1, w2, w3, w4⟩ vs as cs' (j + 1) (by simpa using hl1) (by simpa using hl2)
      (fun j' b hb => by have := has (j' + 1) b (by simpa using hb); rwa [show j + (j' + 1) = j + 1 + j' by omega] at this)
      (fun j' b hb => by have := hcs (j' + 1) b (by simpa using hb); rwa [show j + (j' + 1) = j + 1 + j' by omega] at this)
      (fun j' b d w hb hd hw => hch (j' + 1) b d w (by simpa using hb) (by simpa using hd) (by simpa using hw))
    have hE : filterChildren addr result sh asg (a :: as) (v :: vs) j = ((addr ++ [j], t) :: (filterNode (addr ++ [j]) t v).1 ++ (filterChildren addr result sh asg as vs (j + 1)).1,
        (filterChildren addr result sh asg as vs (j + 1)).2) := by
      rw [filterChildren, ht]
      simp only [e1, if_true]
    rw [hE]
    refine ⟨f1, ?_, ?_⟩
    · intro x hx
      simp only [List.cons_append, List.mem_cons, List.mem_append] at hx
      rcases hx with rfl | hx | hx
      · refine ⟨htne, c, a.pred, fun row hrow => ?_⟩
        obtain ⟨s, -, h2⟩ := htocc row hrow
        exact ⟨s, h2, (e3 row hrow s h2).mono fun y hy => by simp [hy]⟩
      · exact e2.mono (fun y hy => by simp [hy]) x hx
      · exact f2.mono (fun y hy => by simp [hy]) x hx
    · intro j' b hb
      match j' with
      | 0 =>
        simp only [List.getElem?_cons_zero, Option.some.injEq] at hb
        subst hb
        exact ⟨t, by simp, hin⟩
      | j' + 1 =>
        obtain ⟨u, h1, h2⟩ := f3 j' b (by simpa using hb)
        exact ⟨u, by rw [show j + (j' + 1) = j + 1 + j' by omega]; simp [h1], h2⟩
end

theorem childResult_nil {sh : Shape} (hd : sh.disjoint = false) (hon : sh.order.Nodup) (hho : ∀ v ∈ sh.head, v ∈ sh.order) {a : BodyAtom} (hao : ∀ v ∈ a.terms, v ∈ sh.order)
    (asg : List (Nat × Rel α)) (valid : List (Nat × List (List α))) : childResult sh [] asg a valid = none := by
  unfold childResult
  simp only [hd, Bool.false_eq_true, if_false]
  by_cases he : asg.isEmpty = true
  · simp only [he, if_true]
  · simp only [he, Bool.false_eq_true, if_false]
    cases hV : consolidate valid with
    | none => rfl
    | some V =>
      rw [Option.bind_some]
      have hn : ∀ σ : Variable → α, ¬ (Rel.join sh.order [⟨sh.head, []⟩, ⟨sh.order, asg.flatMap fun x => x.2.rows.map (·.take sh.order.length)⟩, ⟨a.terms, V⟩]).Holds σ := by
        intro σ h
        rw [Rel.join_holds sh.order _ ?_ ?_ σ] at h
        · have := h ⟨sh.head, []⟩ (by simp)
          simp [Rel.Holds] at this
        · intro x hx v hv
          simp only [List.mem_cons, List.not_mem_nil, or_false] at hx
          rcases hx with rfl | rfl | rfl
          · exact hho v hv
          · exact hv
          · exact hao v hv
        · intro v hv
          exact ⟨⟨sh.order, asg.flatMap fun x => x.2.rows.map (·.take sh.order.length)⟩, by simp, hv⟩
      have he2 : (Rel.join sh.order [⟨sh.head, []⟩, ⟨sh.order, asg.flatMap fun x => x.2.rows.map (·.take sh.order.length)⟩, ⟨a.terms, V⟩]).rows = [] := by
        rw [List.eq_nil_iff_forall_not_mem]
        intro row hrow
        exact hn _ ((Rel.join_wf _ _ hon).holds_assign hrow)
      simp only [Rel.project, he2, List.map_nil, if_true]

theorem filterNode_nil {v : Valid α} {q : Query α} {p : Tag} {n : Nat} (hv : VOK rules st q p n v) (addr : List Nat) : (filterNode addr [] v).1 = [] := by
  cases hv with
  | leaf => rw [filterNode]
  | @node qs i k cs _ _ n' l r sh asg vs htab hr hl hvs hdis hon hord hat hn hst hsup hch =>
    rw [filterNode]
    cases hp : r.positive with
    | nil => cases vs <;> simp [filterChildren]
    | cons a as =>
      cases vs with
      | nil => rw [hp] at hvs; simp at hvs
      | cons v vs =>
        rw [filterChildren, childResult_nil hdis hon (fun v hv => (hord v).2 (.inl hv)) (fun v hv => (hord v).2 (.inr (List.mem_flatMap.2 ⟨a, by rw [hp]; simp, hv⟩)))]

theorem Reached.first {cond : Nat → List (Nat × Nat) → List (List Nat)} {cfgs : List RuleCfg} {outs : List Tag} (hp : ProgOK rules cfgs arity)
    (hna : ∀ r ∈ rules, r.containsAggregates = false) (he : EdbOK edb arity) (h : Reached cond rules cfgs outs edb st) : st.history[0]? = some (2 ^ 64 - 1) := by
  obtain ⟨strata, tr, -, -, g3⟩ := h
  have hhist := ((hist_init (rules := rules) (outs := outs) he).exec hp hna g3).2
  rw [(Eng.combinePredicates_history outs _).1, (Eng.init_history edb).1] at hhist
  rw [hhist]; rfl

/-- **C66: the facts at the nodes of derivation trees.**  At any point of an execution, for any choice that the program is free to make and any good query: the answer at the root are exactly
the facts with a derivation of the given form that follows the steps of the execution; each fact at another address occurs there in such a derivation of a fact of the root; and together with facts
that are shown for the children it is the head of an instance of the rule of its node. -/
theorem node_query_partial {cond : Nat → List (Nat × Nat) → List (List Nat)} {cfgs : List RuleCfg} {outs : List Tag} (hp : ProgOK rules cfgs arity)
    (hna : ∀ r ∈ rules, r.containsAggregates = false) (he : EdbOK edb arity) (h : Reached cond rules cfgs outs edb st) (hc : c.OK) (hlen : rules.length < 2 ^ 64) {q : Query α} {p : Tag}
    (hg : Good rules q p) :
    ∃ out, traceNode c rules arity st q p = some out ∧
      (∀ row, (∃ rows, ([], rows) ∈ out ∧ row ∈ rows) ↔ ∃ s, SatAt rules st q p row s) ∧
      ∀ addr rows, (addr, rows) ∈ out → ∃ q' p', ∀ row ∈ rows, ∃ s, Occurs rules st q p addr q' p' row s ∧ Explained rules st out addr q' p' row s := by
  have hist := h.hist hp hna he
  have h0 : ∀ i, st.history[0]? = some i → rules[i]? = none := by
    intro i hi
    rw [Reached.first hp hna he h] at hi
    cases hi
    rw [List.getElem?_eq_none]
    omega
  obtain ⟨v, h1, h2⟩ := validNode_spec hp hna hist hc h0 q p st.history.length hg
  have hlt : ∀ row s, SatAt rules st q p row s → s < st.history.length := by
    intro row s hs
    obtain ⟨e, he, rfl, -⟩ := hs.at
    rw [hist.len]
    exact hist.ok.steps p e he
  have hE : traceNode c rules arity st q p = match consolidate v.tables with
      | none => some []
      | some t => some (([], t) :: (filterNode [] t v).1) := by
    unfold traceNode
    rw [h1]; rfl
  cases hV : consolidate v.tables with
  | none =>
    rw [hV] at hE
    refine ⟨[], hE, fun row => ⟨by simp, ?_⟩, by simp⟩
    rintro ⟨s, hs⟩
    obtain ⟨rows, h3, -⟩ := (h2.tab.rows s row).2 ⟨hlt row s hs, hs⟩
    unfold consolidate at hV
    split at hV
    · rename_i hc'
      rw [List.isEmpty_iff] at hc'
      rw [hc'] at h3; cases h3
    · cases hV
  | some t =>
    rw [hV] at hE
    have hm : ∀ row, row ∈ t ↔ ∃ s, SatAt rules st q p row s := by
      intro row
      rw [consolidate_mem hV]
      constructor
      · rintro ⟨s, rows, h3, h4⟩
        exact ⟨s, ((h2.tab.rows s row).1 ⟨rows, h3, h4⟩).2⟩
      · rintro ⟨s, hs⟩
        obtain ⟨rows, h3, h4⟩ := (h2.tab.rows s row).2 ⟨hlt row s hs, hs⟩
        exact ⟨s, rows, h3, h4⟩
    refine ⟨_, hE, ?_, ?_⟩
    · intro row
      rw [← hm]
      constructor
      · rintro ⟨rows, h3, h4⟩
        rcases List.mem_cons.1 h3 with h3 | h3
        · cases h3; exact h4
        · by_cases ht : t = []
          · rw [ht, filterNode_nil h2] at h3; cases h3
          · obtain ⟨-, e2, -⟩ := filterNode_spec hist.ok q p v q p st.history.length [] t h2 ht
              (fun row hr => by obtain ⟨s, hs⟩ := (hm row).1 hr; exact ⟨s, hlt row s hs, .root hs⟩)
            obtain ⟨-, q', p', h5⟩ := e2 _ h3
            obtain ⟨s, h6, -⟩ := h5 row h4
            have h7 : ∀ {addr q' p' row s}, Occurs rules st q p addr q' p' row s → addr = [] → SatAt rules st q p row s := by
              intro addr q' p' row s ho ha
              cases ho with
              | root h => exact h
              | child => simp at ha
            exact (hm row).2 ⟨s, h7 h6 rfl⟩
      · intro h4; exact ⟨t, by simp, h4⟩
    · by_cases ht : t = []
      · intro addr rows hx
        rw [ht, filterNode_nil h2] at hx
        simp only [List.mem_singleton, Prod.mk.injEq] at hx
        obtain ⟨rfl, rfl⟩ := hx
        exact ⟨q, p, by simp⟩
      · obtain ⟨-, e2, e3⟩ := filterNode_spec hist.ok q p v q p st.history.length [] t h2 ht
          (fun row hr => by obtain ⟨s, hs⟩ := (hm row).1 hr; exact ⟨s, hlt row s hs, .root hs⟩)
        intro addr rows hx
        rcases List.mem_cons.1 hx with hx | hx
        · cases hx
          refine ⟨q, p, fun row hr => ?_⟩
          obtain ⟨s, hs⟩ := (hm row).1 hr
          exact ⟨s, .root hs, (e3 row hr s (.root hs)).mono fun y hy => by simp [hy]⟩
        · obtain ⟨-, q', p', h5⟩ := e2 _ hx
          refine ⟨q', p', fun row hr => ?_⟩
          obtain ⟨s, h6, h7⟩ := h5 row hr
          exact ⟨s, h6, h7.mono fun y hy => by simp [hy]⟩

/-- **The derivations are derivations from the facts of the result.** -/
theorem satAt_form {cond : Nat → List (Nat × Nat) → List (List Nat)} (hcond : CondOK cond) {cfgs : List RuleCfg} {outs : List Tag} (hp : ProgOK rules cfgs arity)
    (hto : ∀ r ∈ rules, TraceOK r) (he : EdbOK edb arity) (h : Reached cond rules cfgs outs edb st) (hlen : rules.length < 2 ^ 64) {q : Query α} {p : Tag} {row : List α} {s : Nat}
    (hs : SatAt rules st q p row s) : Form rules st.answers q p row := by
  have hna : ∀ r ∈ rules, r.containsAggregates = false := fun r hr => (hto r hr).plain
  have hist := h.hist hp hna he
  induction hs with
  | leaf h1 h2 =>
    refine .leaf ?_ h2
    rw [answers_eq hist.ok]
    exact ⟨_, h1⟩
  | @node qs i k cs p row s r hd σ ts h1 h2 h3 h4 h5 h6 h7 h8 h9 h10 h11 ih =>
    have hz : s ≠ 0 := by
      intro hz
      rw [hz, Reached.first hp hna he h] at h3
      cases h3
      rw [List.getElem?_eq_none (by omega)] at h4
      cases h4
    exact .node h2 h4 h5 h6 h7 (body_all hcond hp hto he h hz h3 h4 h8) h9 ih

end

end Verif.Trace.NodeQ
