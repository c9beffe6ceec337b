import Verif.PropTranslate
import Verif.ExDecide
import Verif.DataText

/-!
# Examples for C51 and C52

A program text with a base, a prefix, facts with names and numbers, a comparison and a negated atom.
-/
set_option linter.unusedSimpArgs false

namespace Verif.Tr.Example
open Verif.Parse (Str Ex FEl VarKind AOp IOp Enc Guard RuleAst DirectiveAst KindAst StmtAst ProgramAst)

/-- The text. -/
def text : Str := ("@base <http://ex.org/> .\n@prefix f: <http://f.org/> .\nedge(a, b).\nedge(b, 5).\n" ++
  "f:node(?x) :- edge(?x, _).\nreach(?x, ?z) :- edge(?x, ?y), edge(?y, ?z).\n" ++
  "cut(?x, ?y) :- f:node(?x), f:node(?y), ~reach(?x, ?y), ?x != ?y.\n@output cut .").toList

def x : Ex := .variable .universal ['x']
def y : Ex := .variable .universal ['y']
def z : Ex := .variable .universal ['z']
def edge (a b : Ex) : Guard := .expression (.atom (.plain "edge".toList) [a, b])
def node (a : Ex) : Guard := .expression (.atom (.prefixed ['f'] "node".toList) [a])
def reach (a b : Ex) : Guard := .expression (.atom (.plain "reach".toList) [a, b])
def cut (a b : Ex) : Guard := .expression (.atom (.plain "cut".toList) [a, b])
def notReach (a b : Ex) : Guard := .expression (.negation (.atom (.plain "reach".toList) [a, b]))
def a : Ex := .constant (.plain ['a'])
def b : Ex := .constant (.plain ['b'])
def five : Ex := .number ⟨false, ['5'], none, none, none⟩

def rule1 : RuleAst := ⟨[node x], [edge x .anonymous]⟩
def rule2 : RuleAst := ⟨[reach x z], [edge x y, edge y z]⟩
def rule3 : RuleAst := ⟨[cut x y], [node x, node y, notReach x y, .compare .ne x y]⟩

/-- Its syntax tree. -/
def ast : ProgramAst := ⟨none,
  [⟨none, [], .directive (.base "http://ex.org/".toList)⟩,
   ⟨none, [], .directive (.prefixIs ['f'] "http://f.org/".toList)⟩,
   ⟨none, [], .fact (edge a b)⟩,
   ⟨none, [], .fact (edge b five)⟩,
   ⟨none, [], .rule rule1⟩,
   ⟨none, [], .rule rule2⟩,
   ⟨none, [], .rule rule3⟩,
   ⟨none, [], .directive (.output [.plain "cut".toList])⟩]⟩

deriving instance DecidableEq for Verif.Parse.Outcome

set_option maxRecDepth 100000 in
theorem parse_text : Parse.parse text = .ok ast := by decide +kernel

set_option maxRecDepth 100000 in
theorem read_text (L : Fn.Lib) : ∃ items, readProgram L text = .ok items := by
  rw [readProgram, parse_text]
  exact ⟨_, rfl⟩

/-- The abbreviations. -/
def N : Names := ⟨some "http://ex.org/".toList, fun p => if p = ['f'] then some "http://f.org/".toList else none⟩

theorem declared : Declared ast.statements N := by
  refine ⟨fun i => ?_, fun p i => ?_⟩
  · simp only [N, ast, List.mem_cons, List.not_mem_nil, or_false, exists_eq_or_imp, exists_eq_left, KindAst.directive.injEq,
      DirectiveAst.base.injEq, reduceCtorEq, or_false, false_or, Option.some.injEq]
  · simp only [N, ast, List.mem_cons, List.not_mem_nil, or_false, exists_eq_or_imp, exists_eq_left, KindAst.directive.injEq,
      DirectiveAst.prefixIs.injEq, reduceCtorEq, or_false, false_or]
    by_cases h : p = ['f']
    · simp [h]
    · simp [h, Ne.symm h]

/-- The numbers of arguments: one for `f:node` and two for all others. -/
def arity (n : Str) : Nat := if n = "http://f.org/node".toList then 1 else 2

theorem of_rule {s : StmtAst} (hs : s ∈ ast.statements) {r : RuleAst} (h : s.kind = .rule r) :
    r = rule1 ∨ r = rule2 ∨ r = rule3 := by
  simp only [ast, List.mem_cons, List.not_mem_nil, or_false] at hs
  rcases hs with rfl | rfl | rfl | rfl | rfl | rfl | rfl | rfl <;> cases h <;> simp

theorem of_fact {s : StmtAst} (hs : s ∈ ast.statements) {g : Guard} (h : s.kind = .fact g) : g = edge a b ∨ g = edge b five := by
  simp only [ast, List.mem_cons, List.not_mem_nil, or_false] at hs
  rcases hs with rfl | rfl | rfl | rfl | rfl | rfl | rfl | rfl <;> cases h <;> simp

theorem plain1 : PlainRule rule1 := by
  constructor
  · intro g hg
    simp only [rule1, List.mem_cons, List.not_mem_nil, or_false] at hg
    subst hg
    simp [edge, PlainGuard, PlainArg, x, PlainEx, bare]
  · intro t es hg e he
    simp only [rule1, node, List.mem_cons, List.not_mem_nil, or_false, Guard.expression.injEq, Ex.atom.injEq] at hg
    obtain ⟨-, rfl⟩ := hg
    simp only [List.mem_cons, List.not_mem_nil, or_false] at he
    subst he
    exact .inl (by simp [x, PlainEx])

theorem plain2 : PlainRule rule2 := by
  constructor
  · intro g hg
    simp only [rule2, List.mem_cons, List.not_mem_nil, or_false] at hg
    rcases hg with rfl | rfl <;> simp [edge, PlainGuard, PlainArg, x, y, z, PlainEx, bare]
  · intro t es hg e he
    simp only [rule2, reach, List.mem_cons, List.not_mem_nil, or_false, Guard.expression.injEq, Ex.atom.injEq] at hg
    obtain ⟨-, rfl⟩ := hg
    simp only [List.mem_cons, List.not_mem_nil, or_false] at he
    rcases he with rfl | rfl <;> exact .inl (by simp [x, z, PlainEx])

theorem plain3 : PlainRule rule3 := by
  constructor
  · intro g hg
    simp only [rule3, List.mem_cons, List.not_mem_nil, or_false] at hg
    rcases hg with rfl | rfl | rfl | rfl <;> simp [node, notReach, PlainGuard, PlainArg, x, y, PlainEx, bare]
  · intro t es hg e he
    simp only [rule3, cut, List.mem_cons, List.not_mem_nil, or_false, Guard.expression.injEq, Ex.atom.injEq] at hg
    obtain ⟨-, rfl⟩ := hg
    simp only [List.mem_cons, List.not_mem_nil, or_false] at he
    rcases he with rfl | rfl <;> exact .inl (by simp [x, y, PlainEx])

theorem bound1 : Bound rule1 ['x'] :=
  .atom (t := .plain "edge".toList) (es := [x, .anonymous]) (e := x) (by simp [rule1, edge]) (by simp) rfl
theorem bound2x : Bound rule2 ['x'] :=
  .atom (t := .plain "edge".toList) (es := [x, y]) (e := x) (by simp [rule2, edge]) (by simp) rfl
theorem bound2y : Bound rule2 ['y'] :=
  .atom (t := .plain "edge".toList) (es := [x, y]) (e := y) (by simp [rule2, edge]) (by simp) rfl
theorem bound2z : Bound rule2 ['z'] :=
  .atom (t := .plain "edge".toList) (es := [y, z]) (e := z) (by simp [rule2, edge]) (by simp) rfl
theorem bound3x : Bound rule3 ['x'] :=
  .atom (t := .prefixed ['f'] "node".toList) (es := [x]) (e := x) (by simp [rule3, node]) (by simp) rfl
theorem bound3y : Bound rule3 ['y'] :=
  .atom (t := .prefixed ['f'] "node".toList) (es := [y]) (e := y) (by simp [rule3, node]) (by simp) rfl

theorem names1 : ∀ g, g ∈ rule1.head ∨ g ∈ rule1.body → ∀ n ∈ guardVars g, n = ['x'] := by
  intro g hg n hn
  simp only [rule1, List.mem_cons, List.not_mem_nil, or_false] at hg
  rcases hg with rfl | rfl <;> simpa [node, edge, guardVars, varsOf, varsOfAll, x] using hn

theorem names2 : ∀ g, g ∈ rule2.head ∨ g ∈ rule2.body → ∀ n ∈ guardVars g, n = ['x'] ∨ n = ['y'] ∨ n = ['z'] := by
  intro g hg n hn
  simp only [rule2, List.mem_cons, List.not_mem_nil, or_false] at hg
  rcases hg with rfl | rfl | rfl <;> simp [reach, edge, guardVars, varsOf, varsOfAll, x, y, z] at hn <;> tauto

theorem names3 : ∀ g, g ∈ rule3.head ∨ g ∈ rule3.body → ∀ n ∈ guardVars g, n = ['x'] ∨ n = ['y'] := by
  intro g hg n hn
  simp only [rule3, List.mem_cons, List.not_mem_nil, or_false] at hg
  rcases hg with rfl | rfl | rfl | rfl | rfl <;>
    simp [cut, node, notReach, guardVars, varsOf, varsOfAll, x, y] at hn <;> tauto

theorem varsOf_arg {es : List Ex} {e : Ex} {n : Str} (he : e ∈ es) (hn : n ∈ varsOf e) :
    n ∈ varsOfAll es := by
  induction es with
  | nil => cases he
  | cons e' es ih =>
    rw [varsOfAll, List.mem_append]
    rcases List.mem_cons.1 he with rfl | he
    · exact .inl hn
    · exact .inr (ih he)

theorem scoped_of {r : RuleAst} (hn : ∀ g, g ∈ r.head ∨ g ∈ r.body → ∀ n ∈ guardVars g, n.head? ≠ some '_')
    (hb : ∀ g, g ∈ r.head ∨ g ∈ r.body → ∀ n ∈ guardVars g, Bound r n)
    (hs : ∀ t es, .expression (.negation (.atom t es)) ∈ r.body → ∃ e ∈ es, bare e ≠ .anonymous)
    (ha : aggregates r = []) : Scoped r := by
  refine ⟨hn, fun g hg _ => .inl fun n h => hb g (.inr hg) n h, fun t es hg e he _ n h => ?_, fun g hg n h => hb g (.inl hg) n h, ?_,
    fun t es hg => ?_, by rw [ha]; exact ⟨by simp, fun h => absurd rfl h⟩⟩
  · rcases hg with hg | hg
    · exact hb _ (.inr hg) n (varsOf_arg he h)
    · exact hb _ (.inr hg) n (varsOf_arg he h)
  · refine List.pairwise_of_forall_mem_list fun g hg g' _ _ _ n h _ => hb g (.inr hg) n h
  · obtain ⟨e, he, hne⟩ := hs t es hg
    exact ⟨e, he, hne, fun n h => hb _ (.inr hg) n (varsOf_arg he h)⟩

theorem scoped1 : Scoped rule1 := scoped_of (fun g hg n hn => by rw [names1 g hg n hn]; decide)
  (fun g hg n hn => by rw [names1 g hg n hn]; exact bound1) (fun t es h => by simp [rule1, edge] at h) rfl

theorem scoped2 : Scoped rule2 := scoped_of (fun g hg n hn => by rcases names2 g hg n hn with rfl | rfl | rfl <;> decide)
  (fun g hg n hn => by
    rcases names2 g hg n hn with rfl | rfl | rfl
    · exact bound2x
    · exact bound2y
    · exact bound2z) (fun t es h => by simp [rule2, edge] at h) rfl

theorem scoped3 : Scoped rule3 := scoped_of (fun g hg n hn => by rcases names3 g hg n hn with rfl | rfl <;> decide)
  (fun g hg n hn => by
    rcases names3 g hg n hn with rfl | rfl
    · exact bound3x
    · exact bound3y) (fun t es h => by
      simp [rule3, node, notReach] at h
      exact ⟨x, by simp [h.2], by simp [x, bare]⟩) rfl

theorem uses {t : Parse.Tag} {es : List Ex} (h : Uses ast.statements t es) :
    (t = .plain "edge".toList ∧ es.length = 2) ∨ (t = .prefixed ['f'] "node".toList ∧ es.length = 1) ∨
    (t = .plain "reach".toList ∧ es.length = 2) ∨ (t = .plain "cut".toList ∧ es.length = 2) := by
  cases h with
  | fact hs hk => rcases of_fact hs hk with h | h <;> (simp only [edge, Guard.expression.injEq, Ex.atom.injEq] at h; simp [h])
  | head hs hk hg =>
    rcases of_rule hs hk with rfl | rfl | rfl <;>
      (simp only [rule1, rule2, rule3, node, reach, cut, List.mem_cons, List.not_mem_nil, or_false, Guard.expression.injEq,
        Ex.atom.injEq] at hg; simp [hg])
  | body hs hk hg =>
    rcases of_rule hs hk with rfl | rfl | rfl <;>
      simp only [rule1, rule2, rule3, edge, node, notReach, List.mem_cons, List.not_mem_nil, or_false, Guard.expression.injEq,
        Ex.atom.injEq, reduceCtorEq] at hg
    · simp [hg]
    · rcases hg with hg | hg <;> simp [hg]
    · rcases hg with hg | hg <;> simp [hg]
  | negated hs hk hg =>
    rcases of_rule hs hk with rfl | rfl | rfl <;>
      simp only [rule1, rule2, rule3, edge, node, notReach, List.mem_cons, List.not_mem_nil, or_false, false_or,
        Guard.expression.injEq, Ex.negation.injEq, Ex.atom.injEq, reduceCtorEq] at hg
    simp [hg]

/-- **The text meets the hypotheses of the theorems.** -/
theorem covered : Covered N ast.statements arity := by
  refine ⟨fun s hs r hk => ?_, fun s hs t es hk => ?_, fun t es hu n hn => ?_⟩
  · rcases of_rule hs hk with rfl | rfl | rfl
    · exact ⟨plain1, scoped1⟩
    · exact ⟨plain2, scoped2⟩
    · exact ⟨plain3, scoped3⟩
  · rcases of_fact hs hk with h | h <;> simp only [edge, Guard.expression.injEq, Ex.atom.injEq] at h <;>
      obtain ⟨-, rfl⟩ := h <;> simp [a, b, five, PlainEx, varsOf]
  · rcases uses hu with ⟨rfl, h⟩ | ⟨rfl, h⟩ | ⟨rfl, h⟩ | ⟨rfl, h⟩ <;> rw [h] <;> cases hn <;> decide

theorem noExistential : ∀ s ∈ ast.statements, ∀ r, s.kind = .rule r → NoExistential r := by
  intro s hs r hk
  rcases of_rule hs hk with rfl | rfl | rfl <;> intro e he <;>
    simp [rule1, rule2, rule3, node, reach, cut, arguments] at he <;> rcases he with rfl | rfl <;> rfl

theorem stratified : Stratified N ast.statements := by
  refine ⟨fun n => if n = "http://ex.org/cut".toList then 1 else 0, fun s hs r hk t es n hg hn => ?_⟩
  rcases of_rule hs hk with rfl | rfl | rfl
  · refine ⟨fun t' es' m hg' hm => ?_, fun t' es' m hg' hm => by simp [rule1, edge] at hg', fun h => absurd rfl h⟩
    simp only [rule1, edge, List.mem_cons, List.not_mem_nil, or_false, Guard.expression.injEq, Ex.atom.injEq] at hg'
    obtain ⟨rfl, -⟩ := hg'
    cases hm
    exact Nat.zero_le _
  · refine ⟨fun t' es' m hg' hm => ?_, fun t' es' m hg' hm => by simp [rule2, edge] at hg', fun h => absurd rfl h⟩
    simp only [rule2, edge, List.mem_cons, List.not_mem_nil, or_false, Guard.expression.injEq, Ex.atom.injEq] at hg'
    obtain ⟨rfl, -⟩ | ⟨rfl, -⟩ := hg' <;> (cases hm; exact Nat.zero_le _)
  · simp only [rule3, cut, List.mem_cons, List.not_mem_nil, or_false, Guard.expression.injEq, Ex.atom.injEq] at hg
    obtain ⟨rfl, -⟩ := hg
    cases hn
    refine ⟨fun t' es' m hg' hm => ?_, fun t' es' m hg' hm => ?_, fun h => absurd rfl h⟩
    · simp only [rule3, node, notReach, List.mem_cons, List.not_mem_nil, or_false, Guard.expression.injEq, Ex.atom.injEq,
        reduceCtorEq] at hg'
      obtain ⟨rfl, -⟩ | ⟨rfl, -⟩ := hg' <;> (cases hm; exact Nat.zero_le _)
    · simp only [rule3, node, notReach, List.mem_cons, List.not_mem_nil, or_false, false_or, Guard.expression.injEq,
        Ex.negation.injEq, Ex.atom.injEq, reduceCtorEq] at hg'
      obtain ⟨rfl, -⟩ := hg'
      cases hm
      exact Nat.zero_lt_one

theorem noNewValues : ∀ s ∈ ast.statements, ∀ r, s.kind = .rule r → NoNewValues r := by
  intro s hs r hk
  have hvar : ∀ t es, (.expression (.atom t es) ∈ r.head ∨ .expression (.negation (.atom t es)) ∈ r.body) → ∀ e ∈ es,
      e = x ∨ e = y ∨ e = z := by
    intro t es hg e he
    rcases of_rule hs hk with rfl | rfl | rfl <;>
      simp only [rule1, rule2, rule3, edge, node, reach, cut, notReach, List.mem_cons, List.not_mem_nil, or_false, false_or,
        Guard.expression.injEq, Ex.negation.injEq, Ex.atom.injEq, reduceCtorEq] at hg
    · obtain ⟨-, rfl⟩ := hg; simp at he; simp [he]
    · obtain ⟨-, rfl⟩ := hg; simp at he; rcases he with rfl | rfl <;> simp
    · rcases hg with ⟨-, rfl⟩ | ⟨-, rfl⟩ <;> simp at he <;> rcases he with rfl | rfl <;> simp
  have hprim : ∀ e, e = x ∨ e = y ∨ e = z → Primitive e := by rintro e (rfl | rfl | rfl) <;> trivial
  refine ⟨fun t es hg e he => hprim e (hvar t es (.inl hg) e he), fun k i ds h => ?_, fun t es hg e he => hprim e (hvar t es (.inr hg) e he),
    fun g hg n e ha => ?_⟩
  · rcases of_rule hs hk with rfl | rfl | rfl <;> cases h
  rcases of_rule hs hk with rfl | rfl | rfl <;> simp only [rule1, rule2, rule3, List.mem_cons, List.not_mem_nil, or_false] at hg
  · subst hg; cases ha
  · rcases hg with rfl | rfl <;> cases ha
  · rcases hg with rfl | rfl | rfl | rfl <;> cases ha

deriving instance Inhabited for Verif.RuleCfg

section
variable {α : Type} [DecidableEq α] [Dom α] (L : Fn.Lib) (el : DV → α)

/-- **The program text is read and executed, and the answers are what it means**, whatever values names and numbers stand for:
for instance, 5 can be reached from `a`. -/
theorem run : ∃ (items : List Item) (Ss : List (SRule α)) (fs : List (Verif.Tag × List α)) (rules : List (NRule α))
    (cond : Nat → List (Nat × Nat) → List (List Nat)) (fuel : Nat) (st : Eng α),
    readProgram L text = .ok items ∧ sourceRules el items = some Ss ∧ sourceFacts el items = some fs ∧ CondOK cond ∧
    normalizeProgram [] Ss = some rules ∧
    Eng.execute cond rules (Ss.map fun _ => default) [code "http://ex.org/cut".toList] fuel (Eng.init (inputs fs [])) = some (some st) ∧
    Meaning L el N ast.statements (fun _ _ => False) (fun n row => st.answers (code n) row) ∧
    st.answers (code "http://ex.org/reach".toList) [el (.iri "http://ex.org/a"), el (.long 5)] := by
  obtain ⟨items, hread⟩ := read_text L
  obtain ⟨Ss, fs, h1, h2, h3⟩ := text_answers_partial (el := el) parse_text hread declared covered noExistential
  obtain ⟨Ss', fs', g1, g2, g3⟩ := text_terminates_partial (el := el) parse_text hread declared covered noExistential stratified noNewValues
  rw [h1] at g1; rw [h2] at g2
  cases g1; cases g2
  obtain ⟨cond, hcond⟩ := exists_condOK
  obtain ⟨rules, hr, -⟩ := normalizeProgram_spec [] Ss
  obtain ⟨fuel, st, hx⟩ := g3 [] [] rules cond (Ss.map fun _ => default) [code "http://ex.org/cut".toList] (by simp) hr hcond (by simp)
  have hm := h3 [] [] rules cond _ _ fuel st (by simp) hr hcond (by simp) hx
  have hm' : Meaning L el N ast.statements (fun _ _ => False) (fun n row => st.answers (code n) row) := by
    simpa using hm
  refine ⟨items, Ss, fs, rules, cond, fuel, st, hread, h1, h2, hcond, hr, hx, hm', ?_⟩
  refine (hm' "http://ex.org/reach".toList _).2 fun I ⟨i1, _, i3⟩ => ?_
  have e1 : I "http://ex.org/edge".toList [el (.iri "http://ex.org/a"), el (.iri "http://ex.org/b")] :=
    i1 _ _ ⟨⟨none, [], .fact (edge a b)⟩, by simp [ast], _, _, rfl, rfl, .cons (fun _ => rfl) (.cons (fun _ => rfl) .nil)⟩
  have e2 : I "http://ex.org/edge".toList [el (.iri "http://ex.org/b"), el (.long 5)] :=
    i1 _ _ ⟨⟨none, [], .fact (edge b five)⟩, by simp [ast], _, _, rfl, rfl, .cons (fun _ => rfl) (.cons (fun _ => rfl) .nil)⟩
  refine i3 ⟨none, [], .rule rule2⟩ (by simp [ast]) rule2 rfl _ _ (.inl ⟨rfl, .plain
    (ρ := fun v => if v = ['x'] then el (.iri "http://ex.org/a") else if v = ['y'] then el (.iri "http://ex.org/b") else el (.long 5))
      ⟨fun g hg _ => ?_, ?_⟩ (List.mem_singleton.2 rfl) (fun e he => ?_) rfl (.cons rfl (.cons rfl .nil))⟩)
  · simp only [rule2, List.mem_cons, List.not_mem_nil, or_false] at hg
    rcases hg with rfl | rfl
    · exact ⟨_, _, rfl, e1, .cons (.inr rfl) (.cons (.inr rfl) .nil)⟩
    · exact ⟨_, _, rfl, e2, .cons (.inr rfl) (.cons (.inr rfl) .nil)⟩
  · refine ⟨fun t es hg e he _ _ => ?_, fun t es hg e he k i ds h => ?_, fun t es hg => by simp [rule2, edge] at hg⟩ <;>
      simp only [rule2, reach, List.mem_cons, List.not_mem_nil, or_false, Guard.expression.injEq, Ex.atom.injEq] at hg <;>
      obtain ⟨-, rfl⟩ := hg <;> simp only [List.mem_cons, List.not_mem_nil, or_false] at he
    · rcases he with rfl | rfl <;> exact (nomatch ·)
    · rcases he with rfl | rfl <;> cases h
  · simp only [List.mem_cons, List.not_mem_nil, or_false] at he
    rcases he with rfl | rfl <;> rfl

end

/-! ## Findings -/

set_option maxRecDepth 100000 in
theorem parse_badName : Parse.parse "#[name(5)]\np(?x) :- q(?x).".toList = .ok ⟨none, [⟨none,
    [.atom (.plain "name".toList) [five]],
    .rule ⟨[.expression (.atom (.plain ['p']) [x])], [.expression (.atom (.plain ['q']) [x])]⟩⟩]⟩ := by decide +kernel

/-- An attribute of a wrong kind is reported, but before the report is returned, the reader panics. -/
theorem badName_panics (L : Fn.Lib) : readProgram L "#[name(5)]\np(?x) :- q(?x).".toList = .panic := by
  rw [readProgram, parse_badName]
  rfl

set_option maxRecDepth 100000 in
theorem parse_large : Parse.parse "p(1e400).".toList = .ok ⟨none, [⟨none, [],
    .fact (.expression (.atom (.plain ['p']) [.number ⟨false, ['1'], none, some (false, "400".toList), none⟩]))⟩]⟩ := by
  decide +kernel

/-- Numerals that are too large for a floating point number are not reported as errors. -/
theorem large_panics (L : Fn.Lib) (h : L.parseF64 "+1e+400" = none) : readProgram L "p(1e400).".toList = .panic := by
  have hn : number L ⟨false, ['1'], none, some (false, "400".toList), none⟩ = .panic := by
    rw [number_real L (.inr (.inl (by simp))), if_neg (by simp)]
    have : String.ofList (numText ⟨false, ['1'], none, some (false, "400".toList), none⟩) = "+1e+400" := by decide
    rw [this, h]
  rw [readProgram, parse_large]
  simp only [translate, statements, statement, fact, headAtom, atom, terms, term, hn]
  rfl

/-- A type marker on a whole number is ignored: `5d` and `5f` are the integer 5. -/
theorem marker_ignored (L : Fn.Lib) (m : Bool) : number L ⟨false, ['5'], none, none, some m⟩ = .ok (.long 5) :=
  (number_whole L (k := 5) (i := 5) ⟨by simp, (by decide : Fn.digits 10 ['5'] 0 = some 5), rfl, rfl⟩ rfl ⟨by decide, by decide⟩).1

/-- Integers of more than 63 bits become floating point numbers. -/
theorem large_integer (L : Fn.Lib) {f : _} (h : L.parseF64 "+9223372036854775808" = some f) :
    number L ⟨false, "9223372036854775808".toList, none, none, none⟩ = .ok (.double f) := by
  rw [number_real L (.inr (.inr ⟨9223372036854775808, ⟨by simp, by decide, rfl, rfl⟩, by decide⟩)), if_neg (by simp)]
  have : String.ofList (numText ⟨false, "9223372036854775808".toList, none, none, none⟩) = "+9223372036854775808" := by decide
  rw [this, h]

/-- A blank node in a program is the same as the name without base. -/
theorem blank_is_iri (L : Fn.Lib) (c : Ctx) (n : Str) : term L c (.blank n) = term L c (.constant (.iri n)) := rfl

/-- A large encoded number and the integer literal with the same value are different. -/
theorem large_encoded (L : Fn.Lib) : encoded .hex "8000000000000000".toList = .other "9223372036854775808" "xsd:integer" ∧
    Lit.typedLit L "9223372036854775808" "http://www.w3.org/2001/XMLSchema#integer" ≠
      .val (.other "9223372036854775808" "xsd:integer") := by
  refine ⟨by rfl, ?_⟩
  have : Lit.typedLit L "9223372036854775808" "http://www.w3.org/2001/XMLSchema#integer" =
      .val (.other "9223372036854775808" "http://www.w3.org/2001/XMLSchema#integer") := by
    have h : "http://www.w3.org/2001/XMLSchema#integer" = Lit.XSD ++ "integer" := by decide
    rw [Lit.typedLit, h, Lit.stripXsd_append]
    rfl
  rw [this]
  intro h
  injection h with h
  injection h with h1 h2
  exact absurd h2 (by decide)

end Verif.Tr.Example
