import Verif.PropMergeRule
import Verif.IncrementalExamples

/-!
# Merging SPARQL imports: examples and counterexamples
-/

set_option linter.unusedSimpArgs false
set_option maxRecDepth 100000

namespace Verif.SqExample
open SourceExample Inc Sq IncExample

/-- SPARQL variables -/
def s : SVar := ['s']
def o : SVar := ['o']
def a : SVar := ['a']
def b : SVar := ['b']

/-- The variables, in the order in which they occur -/
def order : Pat Nat → List SVar := collected

theorem order_enumerates : Enumerates order := fun _ _ => Iff.rfl

/-- `SELECT ?s ?o WHERE { ?s 7 ?o }` -/
def query1 : Query Nat := ⟨0, .project (.bgp [⟨.var s, .const 7, .var o⟩]) [s, o]⟩

/-- `SELECT ?a ?b WHERE { ?a 8 ?b }` -/
def query2 : Query Nat := ⟨0, .project (.bgp [⟨.var a, .const 8, .var b⟩]) [a, b]⟩

/-- `SELECT DISTINCT ?a ?b WHERE { ?a 8 ?b }` -/
def query3 : Query Nat := ⟨0, .distinct (.project (.bgp [⟨.var a, .const 8, .var b⟩]) [a, b])⟩

/-- The data of the endpoint -/
def data : Dataset Nat := ⟨fun s p o => (s, p, o) ∈ [(1, 7, 2), (1, 7, 3), (2, 8, 5), (3, 8, 6)], fun _ _ _ => False⟩

def web : Web Nat := fun _ => data

/-- `q(?x, ?y) :- p(?x), w(?x, ?y), u(?y, ?z), ?z = 5`, where `w` and `u` are import clauses -/
def ruleJ : QRule Nat := ⟨⟨[⟨q, [.var x, .var y]⟩], [.positive ⟨p, [.var x]⟩, .operation (.equal (.var z) (.const 5))]⟩,
  [⟨true, w, 0, query1, [x, y]⟩, ⟨true, IncExample.u, 0, query2, [y, z]⟩]⟩

def progJ : List (QStmt Nat) := [.fact p [1], .rule ruleJ, .other]

/-- The clauses become one clause with the variables `?x` and `?y` and the query
`SELECT ?l0 ?j0 WHERE { { ?l0 7 ?j0 } { ?j0 8 ?r1 . VALUES ?r1 { 5 } } }`. -/
def merged : QRule Nat := ⟨ruleJ.base, [⟨true, w, 0, ⟨0, .project
  (.join (.bgp [⟨.var ['l', '0'], .const 7, .var ['j', '0']⟩])
    (.join (.bgp [⟨.var ['j', '0'], .const 8, .var ['r', '1']⟩]) (.values [['r', '1']] [[some 5]])))
  [['l', '0'], ['j', '0']]⟩, [x, y]⟩]⟩

theorem progJ_merge : mergeProgram order progJ = some [.fact p [1], .rule merged, .other] := by
  rfl

/-! ## The hypotheses of the theorem -/

theorem bgp_plain {D : Dataset Nat} {v w : SVar} {k : Nat} (hv : NoLabel v) (hw : NoLabel w) (h : v ≠ w) :
    Plain D (.bgp [⟨.var v, .const k, .var w⟩]) [v, w] := by
  refine ⟨⟨fun x hx => ?_, fun x hx => .inl hx⟩, by simpa using h, fun μ hμ x hx => ?_⟩
  · simp only [occurring, List.flatMap_cons, List.flatMap_nil, Triple.vars, STerm.vars, List.append_nil, List.cons_append, List.nil_append,
      List.mem_cons, List.not_mem_nil, or_false] at hx
    rcases hx with rfl | rfl | rfl | rfl
    exacts [hv, hw, hv, hw]
  · obtain ⟨s, p, o, h1, -, h3, -⟩ := hμ.1 _ List.mem_cons_self
    have h1' : μ v = some s := h1
    have h3' : μ w = some o := h3
    simp only [List.mem_cons, List.not_mem_nil, or_false] at hx
    rcases hx with rfl | rfl
    · rw [h1']; exact nofun
    · rw [h3']; exact nofun

theorem one_noLabel (c : Char) : NoLabel [c] := fun h => by
  have := h.length_le
  simp [labelSuffix] at this

theorem x_z : x ≠ z := fun h => absurd (named_inj h) (by decide)
theorem y_z : y ≠ z := fun h => absurd (named_inj h) (by decide)

theorem ruleJ_clauses : ∀ c ∈ ruleJ.clauses, c = ⟨true, w, 0, query1, [x, y]⟩ ∨ c = ⟨true, IncExample.u, 0, query2, [y, z]⟩ := by
  intro c hc
  simpa [ruleJ] using hc

theorem ruleJ_ok : RuleMergeable web ruleJ where
  nonempty := by simp [ruleJ]
  positive := fun c hc => by rcases ruleJ_clauses c hc with rfl | rfl <;> rfl
  other := by
    intro a ha c hc
    have ha' : a = ⟨p, [.var x]⟩ := by simpa [ruleJ, WRule.toS, LLit.positive?, LLit.negative?] using ha
    rw [ha']
    rcases ruleJ_clauses c hc with rfl | rfl
    · exact w_p
    · exact u_p
  same := by
    intro c hc d hd h
    rcases ruleJ_clauses c hc with rfl | rfl <;> rcases ruleJ_clauses d hd with rfl | rfl
    · rfl
    · exact absurd h w_u
    · exact absurd h.symm w_u
    · rfl
  clauses :=
    { ok := fun c hc => by
        rcases ruleJ_clauses c hc with rfl | rfl
        · exact ⟨_, _, rfl, bgp_plain (one_noLabel _) (one_noLabel _) (by decide), rfl⟩
        · exact ⟨_, _, rfl, bgp_plain (one_noLabel _) (one_noLabel _) (by decide), rfl⟩
      endpoint := fun c hc d hd => by
        rcases ruleJ_clauses c hc with rfl | rfl <;> rcases ruleJ_clauses d hd with rfl | rfl <;> rfl
      header := fun c hc d hd => by
        rcases ruleJ_clauses c hc with rfl | rfl <;> rcases ruleJ_clauses d hd with rfl | rfl <;> rfl
      mergeable := by
        refine List.pairwise_cons.2 ⟨fun d hd => ?_, List.pairwise_singleton _ _⟩
        rw [List.mem_singleton.1 hd]
        intro v hv hv'
        have hvy : v = y := by
          simp only [List.mem_cons, List.not_mem_nil, or_false] at hv hv'
          rcases hv with rfl | rfl
          · rcases hv' with h | h
            · exact h
            · exact absurd h x_z
          · rfl
        subst hvy
        refine ⟨?_, fun i k hi hk => ?_⟩
        · show List.lookup y [(z, 5)] = none
          rw [List.lookup_cons, show (y == z) = false by simpa using y_z]
          rfl
        · have : ∀ i : Nat, ([y, z] : List Variable)[i]? = some y → i = 0 := by
            intro i hi
            match i, hi with
            | 0, _ => rfl
            | 1, hi => exact absurd (Option.some.inj hi).symm y_z
          rw [this i hi, this k hk] }

/-- The hypotheses of `merge_stable_partial` hold for this program. -/
theorem progJ_ok : ProgramMergeable order web progJ := by
  intro r hr
  have hr' : r = ruleJ := by simpa [progJ] using hr
  subst hr'
  refine .inr (.inr ⟨ruleJ_ok, fun c hc => ?_⟩)
  have hc' : some (some c) = some (some (merged.clauses.head (by simp [merged]))) := hc.symm.trans rfl
  cases hc'
  rfl

/-- The program has the same stable models when the clauses are merged. -/
theorem progJ_stable (M : Interp Nat) : QIsStable web 0 (qrules [.fact p [1], .rule merged, .other]) (qgiven web 0 [.fact p [1], .rule merged, .other]) M ↔
    QIsStable web 0 (qrules progJ) (qgiven web 0 progJ) M := by
  obtain ⟨ts, h1, h2⟩ := merge_stable_partial (u := 0) order_enumerates progJ_ok
  rw [progJ_merge] at h1
  cases h1
  exact h2 M

/-! ## Where the transformation changes the result -/

/-- `q(?x, ?y) :- w(?x, ?y), ~u(?y, ?z)` -/
def ruleN : QRule Nat := ⟨⟨[⟨q, [.var x, .var y]⟩], []⟩, [⟨true, w, 0, query1, [x, y]⟩, ⟨false, IncExample.u, 0, query2, [y, z]⟩]⟩

/-- Here, (1, 2) has a negated match. -/
def webN : Web Nat := fun _ => ⟨fun s p o => (s, p, o) ∈ [(1, 7, 2), (1, 7, 3), (2, 8, 5)], fun _ _ _ => False⟩

def mergedN : QRule Nat := ⟨ruleN.base, [⟨true, w, 0, ⟨0, .project
  (.join (.bgp [⟨.var ['l', '0'], .const 7, .var ['j', '0']⟩])
    (.filterExists false (.bgp [⟨.var ['j', '0'], .const 8, .var ['r', '1']⟩]) (.bgp [])))
  [['l', '0'], ['j', '0'], ['r', '1']]⟩, [x, y, z]⟩]⟩

theorem ruleN_merge : mergeRule order [] ruleN = some ([], mergedN) := by
  rfl

theorem ne3 : x ≠ y ∧ x ≠ z ∧ y ≠ z := ⟨x_ne_y, x_z, y_z⟩

/-- The valuation with the values of `?x` and `?y` -/
def val (i j k : Nat) : Variable → Nat := fun v => if v = x then i else if v = y then j else k

theorem val_x (i j k : Nat) : val i j k x = i := if_pos rfl
theorem val_y (i j k : Nat) : val i j k y = j := by rw [val, if_neg y_ne_x, if_pos rfl]

/-- A row of a query with one triple pattern -/
theorem rows_bgp {D : Dataset Nat} {v w : SVar} (hvw : v ≠ w) {k i j u : Nat} : Rows D u (.project (.bgp [⟨.var v, .const k, .var w⟩]) [v, w]) [i, j] ↔ D.triple i k j := by
  constructor
  · rintro ⟨μ, ⟨μ₀, h1, h2⟩, h3⟩
    obtain ⟨s, p, o, h4, h5, h6, h7⟩ := h1.1 _ List.mem_cons_self
    have h4' : μ₀ v = some s := h4
    have h6' : μ₀ w = some o := h6
    cases h5
    have e1 : μ v = some s := by rw [h2, if_pos (by simp), h4']
    have e2 : μ w = some o := by rw [h2, if_pos (by simp), h6']
    have h3' : [i, j] = [(μ v).getD u, (μ w).getD u] := h3
    rw [e1, e2] at h3'
    cases h3'
    exact h7
  · intro h
    refine ⟨fun x => if x = v then some i else if x = w then some j else none,
      ⟨fun x => if x = v then some i else if x = w then some j else none, ⟨?_, fun x hx => ?_⟩, fun x => ?_⟩, ?_⟩
    · intro t ht
      rw [List.mem_singleton.1 ht]
      exact ⟨i, k, j, if_pos rfl, rfl, by show (if w = v then _ else _) = _; rw [if_neg (Ne.symm hvw), if_pos rfl], h⟩
    · by_cases hx1 : x = v
      · simp [Triple.vars, STerm.vars, hx1]
      · by_cases hx2 : x = w
        · simp [Triple.vars, STerm.vars, hx2]
        · exact absurd (by simp [hx1, hx2]) hx
    · by_cases hx1 : x = v
      · simp [hx1]
      · by_cases hx2 : x = w
        · simp [hx2]
        · simp [hx1, hx2]
    · show [i, j] = [((if v = v then some i else _ : Option Nat)).getD u, ((if w = v then _ else _ : Option Nat)).getD u]
      rw [if_pos rfl, if_neg (Ne.symm hvw), if_pos rfl]
      rfl

theorem no_aggN (r : QRule Nat) (h : r.base.head = [⟨q, [.var x, .var y]⟩]) : ¬ r.toS.HasAgg := by
  rintro ⟨hd, h1, t, h2, h3⟩
  have h1' : hd = ⟨q, [.var x, .var y]⟩ := by
    have : hd ∈ r.base.head := h1
    rw [h] at this
    exact List.mem_singleton.1 this
  subst h1'
  simp only [List.mem_cons, List.not_mem_nil, or_false] at h2
  rcases h2 with rfl | rfl <;> exact h3 rfl

/-- A rule derives nothing if there are no results for a positive import clause. -/
theorem no_rows {W : Web Nat} {r : QRule Nat} {c : QClause Nat} (hc : c ∈ r.clauses) (hp : c.positive = true)
    (hs : ∀ d ∈ r.clauses, d.pred = c.pred → d = c) (h : ∀ row, ¬ Rows (W c.endpoint) 0 c.query.pattern row) (P N : Interp Nat) (p : Tag) (row : List Nat) :
    ¬ QDerives W 0 r P N p row := by
  have hb : ∀ J N' σ, ¬ SBody r.toS (r.load W 0 J) N' σ := by
    intro J N' σ hb
    obtain ⟨row, h1, -⟩ := hb.pos c.toAtom (List.mem_append_right _ (List.mem_map_of_mem (List.mem_filter.2 ⟨hc, hp⟩)))
    rcases h1 with ⟨d, hd, he, h2⟩ | h1
    · rw [hs d hd he] at h2
      exact h _ h2
    · exact h1.1 c hc rfl
  rintro (⟨-, hd⟩ | ⟨-, hd⟩)
  · cases hd with
    | plain h1 => exact hb _ _ _ h1
    | agg h1 => exact hb _ _ _ h1
  · cases hd with
    | plain h1 => exact hb _ _ _ h1
    | agg h1 => exact hb _ _ _ h1

/-- A derivation with a head `q(?x, ?y)` -/
theorem derives_q {W : Web Nat} {r : QRule Nat} (h : r.base.head = [⟨q, [.var x, .var y]⟩]) {P N : Interp Nat} {i j k : Nat}
    (hb : SBody r.toS (r.load W 0 P) (r.load W 0 N) (val i j k)) : QDerives W 0 r P N q [i, j] := by
  refine .inl ⟨no_aggN r h, .plain (h := ⟨q, [.var x, .var y]⟩) hb ?_ ?_ ?_⟩
  · show _ ∈ r.base.head
    rw [h]
    exact List.mem_cons_self
  · intro t ht
    simp only [List.mem_cons, List.not_mem_nil, or_false] at ht
    rcases ht with rfl | rfl <;> rfl
  · intro _
    exact .cons (by show some (val i j k x) = _; rw [val_x]) (.cons (by show some (val i j k y) = _; rw [val_y]) .nil)

theorem defined_q {r : QRule Nat} (h : r.base.head = [⟨q, [.var x, .var y]⟩]) (hn : ∀ a ∈ r.toS.negative, ∀ o, BTerm.oper o ∉ a.terms)
    (σ : Variable → Nat) : TermsDefined r.toS σ := by
  have hh : r.toS.head = [⟨q, [.var x, .var y]⟩] := h
  refine ⟨fun a ha o ho => absurd ho (hn a ha o), fun hd hhd t ht _ x0 => ?_, fun hd hhd t ht k i d hag => ?_⟩
  · rw [hh] at hhd
    rw [List.mem_singleton.1 hhd] at ht
    simp only [List.mem_cons, List.not_mem_nil, or_false] at ht
    rcases ht with rfl | rfl <;> exact nofun
  · rw [hh] at hhd
    rw [List.mem_singleton.1 hhd] at ht
    simp only [List.mem_cons, List.not_mem_nil, or_false] at ht
    rcases ht with rfl | rfl <;> cases hag

/-- The rule `ruleN` derives `q(1, 3)`. -/
theorem ruleN_derives (P N : Interp Nat) : QDerives webN 0 ruleN P N q [1, 3] := by
  refine derives_q (k := 0) rfl ⟨fun a ha => ?_, fun o ho => absurd ho (by simp [ruleN, QRule.toS, WRule.toS]), fun a ha => ?_,
    defined_q rfl (fun a ha o ho => ?_) _⟩
  · have ha' : a = ⟨w, [.var x, .var y]⟩ := by simpa [ruleN, QRule.toS, WRule.toS, LLit.positive?, QClause.toAtom] using ha
    rw [ha']
    refine ⟨[1, 3], .inl ⟨⟨true, w, 0, query1, [x, y]⟩, List.mem_cons_self, rfl, (rows_bgp (by decide)).2 ?_⟩,
      .cons (val_x _ _ _) (.cons (val_y _ _ _) .nil)⟩
    exact List.mem_cons_of_mem _ List.mem_cons_self
  · have ha' : a = ⟨IncExample.u, [.var y, .var z]⟩ := by simpa [ruleN, QRule.toS, WRule.toS, LLit.positive?, LLit.negative?, QClause.toAtom] using ha
    rw [ha']
    rintro ⟨τ, row, h1, h2, h3, -⟩
    have hy : τ y = 3 := (h1 y (.atom (a := ⟨w, [.var x, .var y]⟩) (by simp [ruleN, QRule.toS, WRule.toS, LLit.positive?, QClause.toAtom]) (by simp))).trans (val_y _ _ _)
    have h3' : row = [τ y, τ z] := matches_vars (vs := [y, z]).1 h3
    rcases h2 with ⟨c, hc, he, h4⟩ | h2
    · have hc' : c = ⟨true, w, 0, query1, [x, y]⟩ ∨ c = ⟨false, IncExample.u, 0, query2, [y, z]⟩ := by simpa [ruleN] using hc
      rcases hc' with rfl | rfl
      · exact absurd he w_u
      · rw [h3', hy] at h4
        have h5 : (3, 8, τ z) ∈ [(1, 7, 2), (1, 7, 3), (2, 8, 5)] := (rows_bgp (by decide)).1 h4
        simp at h5
    · exact h2.1 ⟨false, IncExample.u, 0, query2, [y, z]⟩ (by simp [ruleN]) rfl
  · have ha' : a = ⟨IncExample.u, [.var y, .var z]⟩ := by simpa [ruleN, QRule.toS, WRule.toS, LLit.positive?, LLit.negative?, QClause.toAtom] using ha
    rw [ha'] at ho
    simp at ho

/-- `(1, 3)` is a result of the positive import, and 3 does not occur in the negated one.  The rule derives `q(1, 3)`; the rule in which both
clauses are merged derives nothing, because the negation is evaluated without the values of the variables. -/
theorem negation_merged_wrong (P N : Interp Nat) : mergeRule order [] ruleN = some ([], mergedN) ∧ QDerives webN 0 ruleN P N q [1, 3] ∧
    ∀ p row, ¬ QDerives webN 0 mergedN P N p row := by
  refine ⟨ruleN_merge, ruleN_derives P N, fun p row => ?_⟩
  refine no_rows (c := mergedN.clauses.head (by simp [mergedN])) (by simp [mergedN]) rfl (fun d hd _ => by simpa [mergedN] using hd) ?_ P N p row
  rintro row ⟨μ, ⟨μ₀, ⟨μ₁, μ₂, -, h2, -⟩, -⟩, -⟩
  have h3 := h2.2
  have he : ∀ v, μ₂ v = none := by
    intro v
    by_contra hv
    have := h2.1.2 v hv
    simp at this
  have h4 : ¬ ∃ μ₃, eval (webN 0) (.bgp [⟨.var ['j', '0'], .const 8, .var ['r', '1']⟩]) μ₃ ∧ Compat μ₂ μ₃ := fun h => by
    have := h3.2 h
    cases this
  refine h4 ⟨fun v => if v = ['j', '0'] then some 2 else if v = ['r', '1'] then some 5 else none, ⟨?_, ?_⟩, fun v a b hv => ?_⟩
  · intro t ht
    rw [List.mem_singleton.1 ht]
    exact ⟨2, 8, 5, rfl, rfl, rfl, by simp [webN]⟩
  · intro v hv
    by_cases h5 : v = ['j', '0']
    · simp [Triple.vars, STerm.vars, h5]
    · by_cases h6 : v = ['r', '1']
      · simp [Triple.vars, STerm.vars, h6]
      · exact absurd (by simp [h5, h6]) hv
  · rw [he v] at hv
    cases hv

/-- If the only import clause is negated, it is lost: the new rule has no import clauses. -/
theorem negative_only_lost (r : WRule Nat) (c : QClause Nat) (h : c.positive = false) : mergeRule order [] ⟨r, [c]⟩ = some ([], ⟨r, []⟩) := by
  simp [mergeRule, mergeAndPush, h, updateImport]

/-- For example, `q(?x, ?y) :- p(?x), p(?y), ~w(?x, ?y)` becomes `q(?x, ?y) :- p(?x), p(?y)`, and then derives `q(1, 2)` although `w(1, 2)`. -/
def ruleL : QRule Nat := ⟨⟨[⟨q, [.var x, .var y]⟩], [.positive ⟨p, [.var x]⟩, .positive ⟨p, [.var y]⟩]⟩, [⟨false, w, 0, query1, [x, y]⟩]⟩

theorem negative_only_wrong (N : Interp Nat) : mergeRule order [] ruleL = some ([], ⟨ruleL.base, []⟩) ∧
    QDerives web 0 ⟨ruleL.base, []⟩ (fun t row => t = p ∧ (row = [1] ∨ row = [2])) N q [1, 2] ∧
    ¬ QDerives web 0 ruleL (fun t row => t = p ∧ (row = [1] ∨ row = [2])) N q [1, 2] := by
  refine ⟨negative_only_lost _ _ rfl, ?_, ?_⟩
  · refine derives_q (k := 0) rfl ⟨fun a ha => ?_, fun o ho => absurd ho (by simp [ruleL, QRule.toS, WRule.toS, LLit.operation?]), fun a ha => ?_,
      defined_q rfl (fun a ha o ho => ?_) _⟩
    · have ha' : a = ⟨p, [.var x]⟩ ∨ a = ⟨p, [.var y]⟩ := by simpa [ruleL, QRule.toS, WRule.toS, LLit.positive?] using ha
      rcases ha' with rfl | rfl
      · exact ⟨[1], .inr ⟨by simp, rfl, .inl rfl⟩, .cons (val_x _ _ _) .nil⟩
      · exact ⟨[2], .inr ⟨by simp, rfl, .inr rfl⟩, .cons (val_y _ _ _) .nil⟩
    · simp [ruleL, QRule.toS, WRule.toS, LLit.negative?] at ha
    · simp [ruleL, QRule.toS, WRule.toS, LLit.negative?] at ha
  · have hb : ∀ P N' σ, σ x = 1 → σ y = 2 → ¬ SBody ruleL.toS P (ruleL.load web 0 N') σ := by
      intro P N' σ h1 h2 hb
      refine hb.neg ⟨w, [.var x, .var y]⟩ (by simp [ruleL, QRule.toS, WRule.toS, LLit.negative?, QClause.toAtom])
        ⟨σ, [1, 2], fun _ _ => rfl, .inl ⟨⟨false, w, 0, query1, [x, y]⟩, by simp [ruleL], rfl, (rows_bgp (by decide)).2 ?_⟩,
          .cons h1 (.cons h2 .nil), ?_⟩
      · exact List.mem_cons_self
      · intro o ho
        simp [ruleL, QRule.toS, WRule.toS, LLit.operation?] at ho
    rintro (⟨-, hd⟩ | ⟨ha, -⟩)
    · generalize hq : q = t at hd
      generalize hrow : [1, 2] = row at hd
      cases hd with
      | @plain σ h _ h1 h2 h3 h4 =>
        have h2' : h = ⟨q, [.var x, .var y]⟩ := by simpa [ruleL, QRule.toS, WRule.toS] using h2
        subst h2'
        have h5 := h4 0
        rw [← hrow] at h5
        cases h5 with
        | cons h6 h7 =>
          cases h7 with
          | cons h8 _ => exact hb _ _ σ (Option.some.inj h6) (Option.some.inj h8) h1
      | @agg τ h t k i d l x0 _ _ h2 h3 h4 =>
        exact no_aggN ruleL rfl ⟨h, h2, t, h3, by
          intro h0
          have h2' : h = ⟨q, [.var x, .var y]⟩ := by simpa [ruleL, QRule.toS, WRule.toS] using h2
          subst h2'
          simp only [List.mem_cons, List.not_mem_nil, or_false] at h3
          rcases h3 with rfl | rfl <;> cases h4⟩
    · exact no_aggN ruleL rfl ha

/-- If two positive clauses cannot be merged, for example because of `SELECT DISTINCT`, all import clauses of the rule are lost:
`q(?x, ?y) :- p(?x), p(?y), w(?x, ?y), u(?x, ?y)` becomes `q(?x, ?y) :- p(?x), p(?y)`. -/
theorem failed_merge_lost (b : WRule Nat) : mergeRule order [] ⟨b, [⟨true, w, 0, query1, [x, y]⟩, ⟨true, IncExample.u, 0, query3, [x, y]⟩]⟩ =
    (joinPositions (equalities b) [x, y] [x, y]).map fun _ => ([], ⟨b, []⟩) := by
  have h : (b.head.any fun h => decide (h.pred ∈ ([] : List Tag))) = false := by simp
  rw [mergeRule, h]
  simp only [Bool.false_or, List.isEmpty_cons, if_false, List.filter_cons, List.filter_nil, Bool.not_true, if_true, mergeAndPush, mergeFold, tryMerge]
  cases joinPositions (equalities b) [x, y] [x, y] with
  | none => rfl
  | some jp => rfl

/-- If there is a constant for a variable that two clauses share, the program terminates with a panic:
`q(?x, ?y) :- w(?x, ?y), u(?y, ?z), ?y = 5`. -/
theorem shared_constant_panics : mergeRule order [] ⟨⟨[⟨q, [.var x, .var y]⟩], [.operation (.equal (.var y) (.const 5))]⟩,
    [⟨true, w, 0, query1, [x, y]⟩, ⟨true, IncExample.u, 0, query2, [y, z]⟩]⟩ = none := by
  rfl

/-- An equality with a constant is removed although the variable occurs in the head: `q(?x, ?y) :- w(?x, ?y), ?x = 1` becomes
`q(?x, ?y) :- w(?y)`. -/
theorem head_variable_lost : ∃ d, mergeRule order [] ⟨⟨[⟨q, [.var x, .var y]⟩], [.operation (.equal (.var x) (.const 1))]⟩, [⟨true, w, 0, query1, [x, y]⟩]⟩ =
    some ([d], ⟨⟨[⟨q, [.var x, .var y]⟩], [.positive ⟨w, [.var y]⟩]⟩, []⟩) :=
  ⟨_, rfl⟩

/-- With `SELECT DISTINCT` the constant is not pushed into the query, but the variable is removed from the clause: the query has two
columns, and the clause has one variable. -/
theorem distinct_column_lost : (QClause.push order [(x, 1)] ⟨true, w, 0, query3, [x, y]⟩).query.pattern = query3.pattern ∧
    (QClause.push order [(x, 1)] ⟨true, w, 0, query3, [x, y]⟩).vars = [y] ∧ (columns query3.pattern).length = 2 :=
  ⟨rfl, rfl, rfl⟩

/-- Two negated clauses become one: `~w(?x, ?y), ~u(?x, ?y)` is turned into a clause for the conjunction of both. -/
theorem negations_merged (σ : Variable → Nat) (D : Dataset Nat) : ∃ c, mergeAndPush order [] [⟨false, w, 0, query1, [x, y]⟩, ⟨false, IncExample.u, 0, query2, [x, y]⟩] = some (some c) ∧
    c.positive = false ∧ (Rows D 0 c.query.pattern (c.vars.map σ) ↔ D.triple (σ x) 7 (σ y) ∧ D.triple (σ x) 8 (σ y)) := by
  have hcs : ClausesOK (fun _ => D) [] [⟨false, w, 0, query1, [x, y]⟩, ⟨false, IncExample.u, 0, query2, [x, y]⟩] := by
    refine ⟨fun c hc => ?_, fun c hc d hd => ?_, fun c hc d hd => ?_, List.pairwise_cons.2 ⟨fun d hd v hv hv' => ⟨rfl, ?_⟩, List.pairwise_singleton _ _⟩⟩
    · simp only [List.mem_cons, List.not_mem_nil, or_false] at hc
      rcases hc with rfl | rfl
      · exact ⟨_, _, rfl, bgp_plain (one_noLabel _) (one_noLabel _) (by decide), rfl⟩
      · exact ⟨_, _, rfl, bgp_plain (one_noLabel _) (one_noLabel _) (by decide), rfl⟩
    · simp only [List.mem_cons, List.not_mem_nil, or_false] at hc hd
      rcases hc with rfl | rfl <;> rcases hd with rfl | rfl <;> rfl
    · simp only [List.mem_cons, List.not_mem_nil, or_false] at hc hd
      rcases hc with rfl | rfl <;> rcases hd with rfl | rfl <;> rfl
    · rw [List.mem_singleton.1 hd]
      have : ∀ (v : Variable) (i k : Nat), ([x, y] : List Variable)[i]? = some v → ([x, y] : List Variable)[k]? = some v → i = k := by
        intro v i k hi hk
        match i, k, hi, hk with
        | 0, 0, _, _ => rfl
        | 1, 1, _, _ => rfl
        | 0, 1, hi, hk => exact absurd ((Option.some.inj hi).trans (Option.some.inj hk).symm) x_ne_y
        | 1, 0, hi, hk => exact absurd ((Option.some.inj hk).trans (Option.some.inj hi).symm) x_ne_y
      exact this v
  obtain ⟨c, h1, h2⟩ := mergeAndPush_ok (u := 0) order_enumerates (by simp) hcs
  refine ⟨c, h1, ?_, ?_⟩
  · obtain ⟨d, hd, he⟩ := h2.positive
    rw [he]
    simp only [List.mem_cons, List.not_mem_nil, or_false] at hd
    rcases hd with rfl | rfl <;> rfl
  · refine (h2.rows σ fun v a h => by cases h).trans ?_
    rw [List.forall_mem_cons, List.forall_mem_cons]
    exact and_congr (rows_bgp (by decide)) ⟨fun h => (rows_bgp (by decide)).1 h.1, fun h => ⟨(rows_bgp (by decide)).2 h, fun d hd => by cases hd⟩⟩

end Verif.SqExample
