import Verif.PropParse

/-!
# Examples for C50

Texts that meet the hypotheses of the theorems in `Verif.PropParse`, and texts at the border of the
grammar.
-/
namespace Verif.Parse.Example
open Verif.Parse

/-! ## A program with a directive, a comment, a rule with arithmetic and a negated atom -/

theorem isName1 {c : Char} (h : c.isAlpha = true) : IsName [c] := ⟨c, [], rfl, h, by simp⟩

theorem ws1 : Gap [' '] := ⟨.space (Or.inl rfl) .nil, by decide⟩
theorem gap0 : Gap [] := ⟨.nil, by simp⟩

/-- `?x` -/
theorem var (c : Char) (h : c.isAlpha = true) : Written (.simple (.variable .universal [c])) ['?', c] :=
  .basic (.variable (k := .universal) (isName1 h))

/-- `1` -/
theorem one : Written (.simple (.number ⟨false, ['1'], none, none, none⟩)) ['1'] :=
  .basic (.number (n := ⟨false, ['1'], none, none, none⟩) (sg := []) (fr := []) (ex := []) (mk := [])
    (Or.inl rfl) ⟨by simp, by decide⟩ rfl rfl rfl)

/-- `?y + 1 * ?x` is the sum of `?y` and a product. -/
theorem arith : Written (.expr (.arithmetic .add (.variable .universal ['y'])
      (.arithmetic .mul (.number ⟨false, ['1'], none, none, none⟩) (.variable .universal ['x']))))
    "?y + 1 * ?x".toList :=
  .arithExpr (.add (o := .add) (w := [' ']) (w' := [' ']) (Or.inl rfl)
      (.sum (.product (.factor (var 'y' (by decide))))) ws1 ws1.1
      (.mul (o := .mul) (w := [' ']) (w' := [' ']) (Or.inl rfl) (.product (.factor one)) ws1 ws1.1
        (.factor (var 'x' (by decide)))))
    ⟨_, _, _, rfl⟩

theorem notBuiltin1 (c : Char) : (Tag.plain [c]).NotBuiltin := by
  intro n hn k hk hs
  cases hn
  have h1 := congrArg List.length hs
  simp only [List.length_map, List.length_cons, List.length_nil] at h1
  have : ∀ k ∈ opTable, k.length ≠ 1 := by decide
  exact this k hk h1.symm

/-- `p(?x, ?y + 1 * ?x) :- q(?x, ?y), ~ r(?x), ?x < ?y` -/
def ruleAst : RuleAst :=
  ⟨[.expression (.atom (.plain ['p']) [.variable .universal ['x'],
      .arithmetic .add (.variable .universal ['y'])
        (.arithmetic .mul (.number ⟨false, ['1'], none, none, none⟩) (.variable .universal ['x']))])],
    [.expression (.atom (.plain ['q']) [.variable .universal ['x'], .variable .universal ['y']]),
     .expression (.negation (.atom (.plain ['r']) [.variable .universal ['x']])),
     .compare .lt (.variable .universal ['x']) (.variable .universal ['y'])]⟩

theorem atomX (c : Char) (h : c.isAlpha = true) :
    Written (.complex (.atom (.plain [c]) [.variable .universal ['x']])) (c :: "(?x)".toList) :=
  .atom (ts := [c]) (w := []) (w' := []) (.plain (isName1 h)) (notBuiltin1 c) .nil
    (.one (.simpleExpr (var 'x' (by decide)))) gap0

theorem headText : GuardText (.expression (.atom (.plain ['p']) [.variable .universal ['x'],
      .arithmetic .add (.variable .universal ['y'])
        (.arithmetic .mul (.number ⟨false, ['1'], none, none, none⟩) (.variable .universal ['x']))]))
    "p(?x, ?y + 1 * ?x)".toList :=
  .complex (.atom (ts := ['p']) (w := []) (w' := []) (.plain (isName1 (by decide))) (notBuiltin1 'p')
    .nil (.more (w := []) (w' := [' ']) (.simpleExpr (var 'x' (by decide))) gap0 ws1.1 (.one arith))
    gap0)

theorem atomQ : GuardText (.expression (.atom (.plain ['q'])
    [.variable .universal ['x'], .variable .universal ['y']])) "q(?x, ?y)".toList :=
  .complex (.atom (ts := ['q']) (w := []) (w' := []) (.plain (isName1 (by decide))) (notBuiltin1 'q')
    .nil (.more (w := []) (w' := [' ']) (.simpleExpr (var 'x' (by decide))) gap0 ws1.1
      (.one (.simpleExpr (var 'y' (by decide))))) gap0)

theorem negR : GuardText (.expression (.negation (.atom (.plain ['r']) [.variable .universal ['x']])))
    "~ r(?x)".toList :=
  .negated (.negation (w := [' ']) ws1.1 (.simpleExpr (.complex (atomX 'r' (by decide)))))

theorem lessXY : GuardText (.compare .lt (.variable .universal ['x']) (.variable .universal ['y']))
    "?x < ?y".toList :=
  .compare (o := .lt) (w := [' ']) (w' := [' ']) (.simpleExpr (var 'x' (by decide))) ws1 ws1.1
    (.simpleExpr (var 'y' (by decide)))

theorem ruleText : RuleText ruleAst
    "p(?x, ?y + 1 * ?x) :- q(?x, ?y), ~ r(?x), ?x < ?y".toList :=
  .rule (w := [' ']) (w' := [' ']) (.list (.one headText)) ws1 ws1.1
    (Or.inr (.list (.more (w := []) (w' := [' ']) atomQ gap0 ws1.1
      (.more (w := []) (w' := [' ']) negR gap0 ws1.1 (.one lessXY)))))

/-- A comment and a line break are white space. -/
theorem ws2 : Ws " % some comment\n".toList :=
  .space (Or.inl rfl) (.line (b := " some comment".toList) (eol := ['\n']) (w := []) (by decide)
    (by decide) (Or.inl rfl) .nil)

theorem nl : Ws ['\n'] := .space (Or.inr (Or.inr (Or.inr rfl))) .nil

def factAst : StmtAst :=
  ⟨none, [], .fact (.expression (.atom (.plain ['r']) [.variable .universal ['x']]))⟩

theorem factText : StmtText factAst "r(?x).".toList :=
  .mk (s := []) (s1 := []) (s2 := "r(?x)".toList) (w := []) .none .nil
    (.fact (.complex (atomX 'r' (by decide)))) gap0

def outputAst : StmtAst := ⟨none, [], .directive (.output [.plain ['p']])⟩

theorem outputText : StmtText outputAst "@output p .".toList :=
  .mk (s := []) (s1 := []) (s2 := "@output p".toList) (w := [' ']) .none .nil
    (.directive (.output (w := [' ']) ws1 (by simp) (Or.inr (.list (.one (.plain (isName1 (by decide)))))))) ws1

def programText : Str :=
  "p(?x, ?y + 1 * ?x) :- q(?x, ?y), ~ r(?x), ?x < ?y. % some comment\n@output p .\n".toList

theorem example_program : ProgramText ⟨none, [⟨none, [], .rule ruleAst⟩, outputAst]⟩ programText :=
  .plain (w := []) .nil
    (.cons (w := " % some comment\n".toList)
      (.mk (s := []) (s1 := []) (s2 := "p(?x, ?y + 1 * ?x) :- q(?x, ?y), ~ r(?x), ?x < ?y".toList)
        (w := []) .none .nil (.rule ruleText) gap0) ws2
      (.cons (w := ['\n']) (s' := []) outputText nl .nil (by simp)) (by decide))
    (noLine_of_noWs (noWs_cons (by decide) (by decide) (by decide)))

/-- The theorem applied to the example. -/
theorem example_parse : parse programText = .ok ⟨none, [⟨none, [], .rule ruleAst⟩, outputAst]⟩ :=
  parse_written example_program

/-! ## An error between two statements -/

/-- The second statement lacks a closing parenthesis; the statements around it are read. -/
theorem example_error : (parse "r(?x).\nq(a.\n@output p .".toList).statements =
    [factAst, ⟨none, [], .error "q(a.".toList⟩, outputAst] :=
  parse_one_error (as := [factAst]) (bs := [outputAst]) (w := []) (s := "r(?x).\n".toList)
    (a := "q(a".toList) (w' := []) (s' := "@output p .".toList)
    (b := ⟨none, [], .error "q(a.".toList⟩) (l := [outputAst]) .nil
    (.cons (w := ['\n']) (s' := []) factText nl .nil (by decide)) (by simp) .nil
    (.cons (w := []) (s' := []) outputText .nil .nil (by simp))
    (noLine_of_noWs (noWs_cons (by decide) (by decide) (by decide)))
    (noLine_of_noWs (noWs_cons (by decide) (by decide) (by decide)))
    (noWs_cons (by decide) (by decide) (by decide))
    (by
      intro a b h
      have : ∀ (a b : Str), "q(a.".toList = a ++ (['.', '\n'] ++ b) → False := by
        intro a b h
        have hm : '\n' ∈ "q(a.".toList := by rw [h]; simp
        revert hm
        decide
      exact this a b (by simpa using h))
    (by decide) (by with_unfolding_all rfl) rfl

/-! ## The border of the grammar

Each of these texts is read in a way that may surprise; the grammar leaves them out. -/

/-- A text with errors. -/
def rejected (s : String) : Bool :=
  match parse s.toList with
  | .errors _ => true
  | _ => false

/-- A text without errors. -/
def accepted (s : String) : Bool :=
  match parse s.toList with
  | .ok _ => true
  | _ => false

/-- A constant whose name starts with `true` or `false` is rejected. -/
example : rejected "p(trueman)." = true := by decide +kernel
example : accepted "p(untrue)." = true := by decide +kernel

/-- Doubled parentheses are accepted on their own, but not as an operand. -/
example : accepted "p(((?x)))." = true ∧ rejected "p(((?x)) + 1)." = true := by decide +kernel

/-- A comment directly after a name becomes a part of the name. -/
example : parse "p(a%b\n).".toList = .ok ⟨none, [⟨none, [], .fact (.expression
    (.atom (.plain ['p']) [.constant (.plain ['a', '%', 'b'])]))⟩]⟩ := by
  with_unfolding_all rfl

/-- An aggregate whose name only starts like a known one is rejected, any other name is accepted. -/
example : rejected "p(#summary(?x))." = true ∧ accepted "p(#total(?x))." = true := by decide +kernel

/-- A predicate with the name of a builtin function is read as that function. -/
example : parse "Str(a).".toList = .ok ⟨none, [⟨none, [], .fact (.expression
    (.operation "STR".toList [.constant (.plain ['a'])]))⟩]⟩ := by
  with_unfolding_all rfl

/-- A documentation comment inside a rule is an error. -/
example : rejected "p(a) :-\n%%% the body\nq(a)." = true := by decide +kernel

/-- After an error the text is skipped up to the first dot at the end of a line, even if there is a
blank line before it: the good statement in between is lost. -/
example : (parse "p(a\n\nq(a) .\nr(?x).".toList).statements =
    [⟨none, [], .error "p(a\n\nq(a) .".toList⟩, factAst] := by
  with_unfolding_all rfl

/-- An unknown directive is accepted, and all that is kept of its content is the first expression. -/
example : parse "@foo bar baz.".toList =
    .ok ⟨none, [⟨none, [], .directive (.unknown "foo".toList "bar".toList)⟩]⟩ := by
  with_unfolding_all rfl

/-- Rules with an empty head or body are accepted by the parser. -/
example : accepted ":- p(a)." = true ∧ accepted "p(a) :- ." = true := by decide +kernel

end Verif.Parse.Example
