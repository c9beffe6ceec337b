import Verif.PropMergeProgram
import Verif.SparqlExamples

/-!
# SPARQL imports that are not incremental after merging: an example
-/

set_option linter.unusedSimpArgs false
set_option maxRecDepth 100000

namespace Verif.SqExample
open SourceExample Inc Sq IncExample

/-- `q(?x, ?y) :- w(?x, ?y), u(?y, ?z), ?z = 5`, where `w` and `u` are import clauses -/
def ruleK : QRule Nat := ⟨⟨[⟨q, [.var x, .var y]⟩], [.operation (.equal (.var z) (.const 5))]⟩,
  [⟨true, w, 0, query1, [x, y]⟩, ⟨true, IncExample.u, 0, query2, [y, z]⟩]⟩

def progK : List (QStmt Nat) := [.rule ruleJ', .rule ruleK, .other]
where ruleJ' : QRule Nat := ⟨⟨[⟨p, [.var x, .var y]⟩], [.positive ⟨q, [.var x, .var y]⟩]⟩, []⟩

/-- The merged query becomes an import of `w`, and the rule becomes `q(?x, ?y) :- w(?x, ?y)`. -/
def importK : QDirective Nat := ⟨w, 0, ⟨0, .project
  (.join (.bgp [⟨.var ['l', '0'], .const 7, .var ['j', '0']⟩])
    (.join (.bgp [⟨.var ['j', '0'], .const 8, .var ['r', '1']⟩]) (.values [['r', '1']] [[some 5]])))
  [['l', '0'], ['j', '0']]⟩⟩

def newK : List (QStmt Nat) :=
  [.rule progK.ruleJ', .imp importK, .rule ⟨⟨[⟨q, [.var x, .var y]⟩], [.positive ⟨w, [.var x, .var y]⟩]⟩, []⟩, .other]

theorem progK_merge : mergeProgram order progK = some newK := by
  have h1 : ineligible progK = [] := by decide +kernel
  unfold mergeProgram
  rw [h1]
  rfl

theorem ruleK_local : ConstantsLocal ruleK.base where
  one := by
    intro o ho v a h
    have ho' : o = .equal (.var z) (.const 5) := by simpa [ruleK, WRule.toS, LLit.operation?] using ho
    subst ho'
    cases h
    exact lookup_z
  operations := by
    intro o ho h
    have ho' : o = .equal (.var z) (.const 5) := by simpa [ruleK, WRule.toS, LLit.operation?] using ho
    subst ho'
    cases h
  atoms := by
    intro a ha
    simp [ruleK, WRule.toS, LLit.positive?, LLit.negative?] at ha
  head := by
    intro h hh v hv
    have hh' : h = ⟨q, [.var x, .var y]⟩ := by simpa [ruleK, WRule.toS] using hh
    subst hh'
    have hv' : v = x ∨ v = y := by simpa [HTerm.varsList, HTerm.vars] using hv
    show List.lookup v [(z, 5)] = none
    rw [List.lookup_cons]
    rcases hv' with rfl | rfl
    · rw [show (x == z) = false by simpa using x_z]; rfl
    · rw [show (y == z) = false by simpa using y_z]; rfl
where lookup_z : (equalities ruleK.base).lookup z = some 5 := by
        show List.lookup z [(z, 5)] = some 5
        rw [List.lookup_cons, show (z == z) = true by simp]

theorem ruleK_ok : RuleMergeable web ruleK where
  nonempty := ruleJ_ok.nonempty
  positive := ruleJ_ok.positive
  other := by
    intro a ha
    simp [ruleK, WRule.toS, LLit.positive?, LLit.negative?] at ha
  same := ruleJ_ok.same
  clauses := ruleJ_ok.clauses

/-- The hypotheses of `merge_imports_partial` hold for this program. -/
theorem progK_ok : ImportsMergeable order web progK := by
  have hr : ∀ r, QStmt.rule r ∈ progK → r = progK.ruleJ' ∨ r = ruleK := by intro r h; simpa [progK] using h
  have hc : ∀ c ∈ ruleK.clauses, c.pred = w ∨ c.pred = IncExample.u := by
    intro c h
    rcases ruleJ_clauses c h with rfl | rfl
    · exact .inl rfl
    · exact .inr rfl
  have hne : ∀ t : Tag, t = p ∨ t = q → ∀ c ∈ ruleK.clauses, t ≠ c.pred := by
    intro t ht c h
    rcases ht with rfl | rfl <;> rcases hc c h with h | h <;> rw [h]
    · exact w_p.symm
    · exact u_p.symm
    · exact w_q.symm
    · exact u_q.symm
  have hj : ∀ c, c ∉ progK.ruleJ'.clauses := by intro c h; cases h
  have hall : ∀ r, QStmt.rule r ∈ progK → ∀ c ∈ r.clauses, r = ruleK := by
    intro r h c h'
    rcases hr r h with rfl | rfl
    · exact absurd h' (hj c)
    · rfl
  refine ⟨fun r h => ?_, fun r h c h' row hf => ?_, fun r h c h' d hd => ?_, fun r h c h' r' hr' x hx => ?_, fun r h c h' r' hr' a ha => ?_,
    fun r h c h' r' hr' c' hc' _ => (hall r h c h').trans (hall r' hr' c' hc').symm⟩
  · rcases hr r h with rfl | rfl
    · exact .inl rfl
    · refine .inr (.inr ⟨ruleK_ok, fun _ _ => .inr ruleK_local⟩)
  · simp [progK] at hf
  · simp [progK] at hd
  · rw [hall r h c h'] at h'
    refine hne _ ?_ c h'
    rcases hr r' hr' with rfl | rfl
    · rw [List.mem_singleton.1 (show x ∈ [_] from hx)]; exact .inl rfl
    · rw [List.mem_singleton.1 (show x ∈ [_] from hx)]; exact .inr rfl
  · rw [hall r h c h'] at h'
    refine hne _ ?_ c h'
    rcases hr r' hr' with rfl | rfl
    · have : a = ⟨q, [.var SourceExample.x, .var y]⟩ := by simpa [progK.ruleJ', WRule.toS, LLit.positive?, LLit.negative?] using ha
      rw [this]; exact .inr rfl
    · simp [ruleK, WRule.toS, LLit.positive?, LLit.negative?] at ha

/-- The results of `p` and `q` are the same. -/
theorem progK_result (M : Interp Nat) (h : QIsStable web 0 (qrules progK) (qgiven web 0 progK) M) :
    ∃ M', QIsStable web 0 (qrules newK) (qgiven web 0 newK) M' ∧ M' p = M p ∧ M' q = M q := by
  obtain ⟨ts, h1, h2, -⟩ := merge_imports_partial (u := 0) order_enumerates progK_ok
  rw [progK_merge] at h1
  cases h1
  obtain ⟨M', h3, h4⟩ := h2 M h
  have hr : ∀ r, QStmt.rule r ∈ progK → r = progK.ruleJ' ∨ r = ruleK := by intro r h; simpa [progK] using h
  refine ⟨M', h3, h4 p ?_, h4 q ?_⟩
  · intro r hr' c hc
    rcases hr r hr' with rfl | rfl
    · cases hc
    · rcases ruleJ_clauses c hc with rfl | rfl
      · exact w_p
      · exact u_p
  · intro r hr' c hc
    rcases hr r hr' with rfl | rfl
    · cases hc
    · rcases ruleJ_clauses c hc with rfl | rfl
      · exact w_q
      · exact u_q

end Verif.SqExample
