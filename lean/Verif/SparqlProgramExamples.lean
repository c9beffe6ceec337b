import Verif.PropSparqlProgram
import Verif.SparqlImportExamples

/-!
# SPARQL imports: an example for both transformations
-/

set_option linter.unusedSimpArgs false
set_option maxRecDepth 100000

namespace Verif.SqExample
open SourceExample Inc Sq IncExample

/-- `q(?x, ?y) :- p(?x), w(?x, ?y), u(?y, 5)` -/
def ruleP : WRule Nat := ⟨[⟨q, [.var x, .var y]⟩], [.positive ⟨p, [.var x]⟩, .positive ⟨w, [.var x, .var y]⟩, .positive ⟨IncExample.u, [.var y, .const 5]⟩]⟩

/-- A program with imports of `w` and `u` -/
def progP : List (Stmt Nat (WRule Nat)) :=
  [.imp ⟨w, some 0, [[1, 2], [1, 3]]⟩, .imp ⟨IncExample.u, some 0, [[2, 5], [3, 6]]⟩, .fact p [1], .rule ruleP, .output q]

/-- The queries of the imports of `w` and `u` -/
def queryOf : QueryOf Nat := fun t _ => (0, if t = w then query1 else query2)

theorem progP_inc : incrementalPredicates progP = [⟨w, some 0, [[1, 2], [1, 3]]⟩, ⟨IncExample.u, some 0, [[2, 5], [3, 6]]⟩] := by decide +kernel

/-- The variable of the constant -/
def k : Variable := importVar IncExample.u 1

/-- The rule after the first transformation: `q(?x, ?y) :- p(?x), _w_0(?x, ?y), _u_1(?y, ?k), ?k = 5` -/
def ruleP' : CRule Nat := ⟨⟨[⟨q, [.var x, .var y]⟩], [.positive ⟨p, [.var x]⟩, .operation (.equal (.var k) (.const 5))]⟩,
  [⟨true, w, privTag w 0, [[1, 2], [1, 3]], [x, y]⟩, ⟨true, IncExample.u, privTag IncExample.u 1, [[2, 5], [3, 6]], [y, k]⟩]⟩

theorem progP_new : incProgram progP = [.fact p [1], .rule ruleP', .output q] := by
  unfold incProgram
  rw [progP_inc]
  rfl

theorem rows_bgp' {D : Dataset Nat} {v w : SVar} (hvw : v ≠ w) {k u : Nat} {row : List Nat} :
    Rows D u (.project (.bgp [⟨.var v, .const k, .var w⟩]) [v, w]) row ↔ ∃ i j, row = [i, j] ∧ D.triple i k j := by
  constructor
  · intro h
    obtain ⟨μ, -, h2⟩ := id h
    have h2' : row = [(μ v).getD u, (μ w).getD u] := h2
    subst h2'
    exact ⟨_, _, rfl, (rows_bgp hvw).1 h⟩
  · rintro ⟨i, j, rfl, h⟩
    exact (rows_bgp hvw).2 h

theorem progP_queries : Represents web 0 queryOf progP := by
  intro d hd row
  simp [progP] at hd
  rcases hd with rfl | rfl
  · show Rows data 0 (if w = w then query1 else query2).pattern row ↔ _
    rw [if_pos rfl]
    refine (rows_bgp' (by decide)).trans ⟨?_, fun h => ?_⟩
    · rintro ⟨i, j, rfl, h⟩
      simp [data] at h
      rcases h with ⟨rfl, rfl⟩ | ⟨rfl, rfl⟩ <;> simp
    · simp at h
      rcases h with rfl | rfl
      · exact ⟨_, _, rfl, by simp [data]⟩
      · exact ⟨_, _, rfl, by simp [data]⟩
  · show Rows data 0 (if IncExample.u = w then query1 else query2).pattern row ↔ _
    rw [if_neg w_u.symm]
    refine (rows_bgp' (by decide)).trans ⟨?_, fun h => ?_⟩
    · rintro ⟨i, j, rfl, h⟩
      simp [data] at h
      rcases h with ⟨rfl, rfl⟩ | ⟨rfl, rfl⟩ <;> simp
    · simp at h
      rcases h with rfl | rfl
      · exact ⟨_, _, rfl, by simp [data]⟩
      · exact ⟨_, _, rfl, by simp [data]⟩

theorem ruleP_positive : ruleP.toS.positive = [⟨p, [.var x]⟩, ⟨w, [.var x, .var y]⟩, ⟨IncExample.u, [.var y, .const 5]⟩] := rfl
theorem ruleP_negative : ruleP.toS.negative = [] := rfl

theorem progP_ok : ProgramOK progP := by
  have hr : ∀ r, .rule r ∈ progP → r = ruleP := by intro r h; simpa [progP] using h
  refine ⟨fun r h => ?_, fun r h => ?_, fun r h => ?_⟩ <;> obtain rfl := hr r h
  · refine ⟨fun v hv => ?_, fun a ha o ho => ?_, fun a ha _ => ?_, fun a ha b hb hi hp i t t' ht ht' h1 h2 => ?_, fun a ha _ i j h1 => ?_, fun a ha b hb _ _ h => ?_,
      fun a ha b hb _ _ h => ?_⟩
    · have : v = x ∨ v = y := by
        simp [SRule.vars, ruleP, WRule.toS, LLit.positive?, LLit.negative?, LLit.operation?, HTerm.varsList, HTerm.vars, List.filterMap_cons] at hv
        tauto
      rcases this with rfl | rfl <;> exact ordinary (by decide)
    all_goals
      rw [ruleP_positive] at ha
      try rw [ruleP_negative] at ha
      simp only [List.append_nil, List.mem_cons, List.not_mem_nil, or_false] at ha
    · rcases ha with rfl | rfl | rfl <;> simp at ho
    · rcases ha with rfl | rfl | rfl
      · exact ⟨_, rfl⟩
      · exact ⟨_, rfl⟩
      · exact ⟨_, rfl⟩
    · rw [ruleP_positive, ruleP_negative] at hb
      simp only [List.append_nil, List.mem_cons, List.not_mem_nil, or_false] at hb
      have ha' : t = .const 5 := by
        have := List.mem_of_getElem? ht
        rcases ha with rfl | rfl | rfl <;> simp at this <;> (try (rcases this with rfl | rfl)) <;> (try subst this) <;> simp_all [isVar]
      have hb' : t' = .const 5 := by
        have := List.mem_of_getElem? ht'
        rcases hb with rfl | rfl | rfl <;> simp at this <;> (try (rcases this with rfl | rfl)) <;> (try subst this) <;> simp_all [isVar]
      rw [ha', hb']
    · have := List.mem_of_getElem? h1
      rcases ha with rfl | rfl | rfl <;> simp at this
    · rcases ha with rfl | rfl | rfl <;> simp at h
    · rcases ha with rfl | rfl | rfl <;> simp at h
  · intro a _ b _ d e hd he _ _
    simp [progP] at hd he
    rcases hd with rfl | rfl <;> rcases he with rfl | rfl <;> rfl
  · intro a ha
    rw [ruleP_positive, ruleP_negative] at ha
    simp only [List.append_nil, List.mem_cons, List.not_mem_nil, or_false] at ha
    rcases ha with rfl | rfl | rfl <;> exact priv_ne (by decide)

theorem x_k : x ≠ k := (ordinary (s := "x") (by decide)).2 _ _
theorem y_k : y ≠ k := (ordinary (s := "y") (by decide)).2 _ _

theorem clausesP {c : QClause Nat} (hc : c ∈ ruleP'.clauses.map (toClause queryOf)) :
    c = ⟨true, privTag w 0, 0, query1, [x, y]⟩ ∨ c = ⟨true, privTag IncExample.u 1, 0, query2, [y, k]⟩ := by
  simp only [ruleP', List.map_cons, List.map_nil, toClause, queryOf, List.mem_cons, List.not_mem_nil, or_false, if_true, if_neg w_u.symm] at hc
  exact hc

theorem k_eq : k = .named "_VAR_IMPORT_u_1" := by decide +kernel

/-- The variables and the queries of the rule -/
theorem ruleP'_query : toRule queryOf ruleP' = ⟨⟨[⟨q, [.var x, .var y]⟩], [.positive ⟨p, [.var x]⟩, .operation (.equal (.var (.named "_VAR_IMPORT_u_1")) (.const 5))]⟩,
    [⟨true, privTag w 0, 0, query1, [x, y]⟩, ⟨true, privTag IncExample.u 1, 0, query2, [y, .named "_VAR_IMPORT_u_1"]⟩]⟩ := by
  simp only [toRule, ruleP', List.map_cons, List.map_nil, toClause, queryOf, if_true, if_neg w_u.symm, k_eq]

theorem rulesP {r : CRule Nat} (h : .rule r ∈ incProgram progP) : r = ruleP' := by
  rw [progP_new] at h
  simpa using h

theorem oldP {r : WRule Nat} (h : .rule r ∈ progP) : r = ruleP := by simpa [progP] using h

/-- The query for the body of the rule is `SELECT ?l0 ?j0 WHERE { { ?l0 7 ?j0 } { ?j0 8 ?r1 . VALUES ?r1 { 5 } } }`. -/
def mergedP : QRule Nat := ⟨ruleP'.base, [⟨true, privTag w 0, 0, ⟨0, .project
  (.join (.bgp [⟨.var ['l', '0'], .const 7, .var ['j', '0']⟩])
    (.join (.bgp [⟨.var ['j', '0'], .const 8, .var ['r', '1']⟩]) (.values [['r', '1']] [[some 5]])))
  [['l', '0'], ['j', '0']]⟩, [x, y]⟩]⟩

/-- The hypotheses of `sparql_imports_partial` hold for this program. -/
theorem progP_queriesOK : QueriesOK order web queryOf progP where
  positive := by
    intro r h a ha
    rw [oldP h, ruleP_negative] at ha
    cases ha
  clauses := by
    intro r h
    rw [rulesP h]
    refine ⟨fun c hc => ?_, fun c hc d hd => ?_, fun c hc d hd => ?_, ?_⟩
    · rcases clausesP hc with rfl | rfl
      · exact ⟨_, _, rfl, bgp_plain (one_noLabel _) (one_noLabel _) (by decide), rfl⟩
      · exact ⟨_, _, rfl, bgp_plain (one_noLabel _) (one_noLabel _) (by decide), rfl⟩
    · rcases clausesP hc with rfl | rfl <;> rcases clausesP hd with rfl | rfl <;> rfl
    · rcases clausesP hc with rfl | rfl <;> rcases clausesP hd with rfl | rfl <;> rfl
    · refine List.pairwise_cons.2 ⟨fun d hd => ?_, List.pairwise_singleton _ _⟩
      rw [List.mem_singleton.1 hd]
      intro v hv hv'
      have hvy : v = y := by
        simp only [toClause, List.mem_cons, List.not_mem_nil, or_false] at hv hv'
        rcases hv with rfl | rfl
        · rcases hv' with h | h
          · exact h
          · exact absurd h x_k
        · rfl
      subst hvy
      refine ⟨?_, fun i k' hi hk => ?_⟩
      · show List.lookup y [(k, 5)] = none
        rw [List.lookup_cons, show (y == k) = false by simpa using y_k]
        rfl
      · have : ∀ i : Nat, ([y, k] : List Variable)[i]? = some y → i = 0 := by
          intro i hi
          match i, hi with
          | 0, _ => rfl
          | 1, hi => exact absurd (Option.some.inj hi).symm y_k
        have h2 : ∀ i : Nat, ([x, y] : List Variable)[i]? = some y → i = 1 := by
          intro i hi
          match i, hi with
          | 0, hi => exact absurd (Option.some.inj hi) x_ne_y
          | 1, _ => rfl
        first
          | rw [this i hi, this k' hk]
          | rw [this i hk, this k' hi]
  rules := by
    intro r h _ c hc
    rw [rulesP h] at hc ⊢
    have hc' : some (some c) = some (some (mergedP.clauses.head (by simp [mergedP]))) := by
      rw [show mergeAndPush order (equalities ruleP'.base) (ruleP'.clauses.map (toClause queryOf)) =
        mergeAndPush order (equalities (toRule queryOf ruleP').base) (toRule queryOf ruleP').clauses from rfl, ruleP'_query] at hc
      exact hc.symm.trans rfl
    cases hc'
    exact .inl rfl
  facts := by
    intro t row h
    have : t = p := by simp [progP] at h; exact h.1
    rw [this]
    exact priv_ne (by decide)
  imports := by
    intro d h
    simp [progP] at h
    rcases h with rfl | rfl <;> exact priv_ne (by decide)
  heads := by
    intro r h x hx
    rw [oldP h] at hx
    rw [List.mem_singleton.1 hx]
    exact priv_ne (by decide)
  outputs := by
    intro t h
    have : t = q := by simpa [progP] using h
    rw [this]
    exact priv_ne (by decide)

theorem progP_merge : mergeProgram order ((incProgram progP).map (toStmt queryOf)) = some [.fact p [1], .rule mergedP, .other] := by
  rw [progP_new]
  show mergeProgram order [.fact p [1], .rule (toRule queryOf ruleP'), .other] = _
  rw [ruleP'_query, mergedP, ruleP', k_eq]
  rfl

/-- The answers of the program with one SPARQL query in the rule are those of the program with complete imports. -/
theorem progP_result (M : Interp Nat) (h : SIsStable ((rulesOf progP).map WRule.toS) (given progP) M) :
    ∃ M', QIsStable web 0 [mergedP] (qgiven web 0 [.fact p [1], .rule mergedP, .other]) M' ∧ M' q = M q := by
  obtain ⟨ts, h1, h2, -⟩ := sparql_imports_partial order_enumerates progP_ok progP_queries progP_queriesOK
  rw [progP_merge] at h1
  cases h1
  obtain ⟨M', h3, h4⟩ := h2 M h
  exact ⟨M', h3, funext fun row => propext (h4 q (.inl (by simp [progP])) row)⟩

end Verif.SqExample
