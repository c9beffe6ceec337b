import Verif.ParseFuel

/-!
# C50: a program text is read as what is written

The parser of rule programs (`Verif.ParseCore`, `ParseExpr`, `ParseStatement`) against the grammar of
`Verif.ParseGrammar` and `Verif.ParseProgramText`.
-/
namespace Verif.Parse

set_option linter.unusedSimpArgs false

/-- The statements that were read, whether or not there were errors. -/
def Outcome.statements : Outcome → List StmtAst
  | .ok p => p.statements
  | .errors p => p.statements
  | .panic => []

/-! ## What is written is what is read -/

/-- Every way of writing a program is read, without errors, as that program. -/
theorem parse_written {p : ProgramAst} {s : Str} (h : ProgramText p s) : parse s = .ok p := h.parse

/-- A text is a way of writing at most one program. -/
theorem programText_unique {p q : ProgramAst} {s : Str} (h : ProgramText p s) (h' : ProgramText q s) :
    p = q := by
  have := h.parse.symm.trans h'.parse
  injection this

/-- An expression followed by something that can follow an expression is read as what is written,
whatever comes after. -/
theorem expression_written {e : Ex} {s r : Str} {n : Nat} (h : Written (.expr e) s) (hr : Stops r)
    (hn : s.length < n) : expression n (s ++ r) = .ok e r :=
  by
  obtain ⟨n, rfl⟩ : ∃ m, n = m + 1 := ⟨n - 1, by omega⟩
  exact (h.claim n (by omega) r hr).1

/-- A text is a way of writing at most one expression: operators bind as usual, parentheses are
respected. -/
theorem expression_unique {e e' : Ex} {s : Str} (h : Written (.expr e) s) (h' : Written (.expr e') s) :
    e = e' := by
  have h1 := expression_written h (Or.inl rfl) (Nat.lt_succ_self _)
  have h2 := expression_written h' (Or.inl rfl) (Nat.lt_succ_self _)
  have := h1.symm.trans h2
  injection this

/-- A text is a way of writing at most one statement. -/
theorem statement_unique {a b : StmtAst} {s : Str} (h : StmtText a s) (h' : StmtText b s) : a = b := by
  have h1 := h.read (r := []) (Nat.le_refl _) (by simp)
  have h2 := h'.read (r := []) (Nat.le_refl _) (by simp)
  have := h1.symm.trans h2
  injection this

/-! ## Every text is read to its end -/

/-- The parser never panics; it reports success exactly if there is no error statement. -/
theorem parse_never_panics (s : Str) : parse s ≠ .panic := by
  obtain ⟨p, ⟨h, _⟩ | ⟨h, _⟩⟩ := parse_total s <;> rw [h] <;> intro h' <;> cases h'

/-- Success is reported exactly if every part of the text was read as a statement. -/
theorem parse_ok_iff (s : Str) : (∃ p, parse s = .ok p) ↔
    ∀ a ∈ (parse s).statements, a.isError = false := by
  obtain ⟨p, ⟨h, h'⟩ | ⟨h, a, ha, ha'⟩⟩ := parse_total s
  · rw [h]
    exact ⟨fun _ => h', fun _ => ⟨p, rfl⟩⟩
  · rw [h]
    constructor
    · rintro ⟨q, hq⟩
      cases hq
    · intro hall
      have := hall a ha
      rw [ha'] at this
      cases this

/-! ## Errors stay local -/

theorem ManySteps.append {p : P α} {s t r : Str} {l l' : List α} (h : ManySteps p s l t)
    (h' : ManySteps p t l' r) : ManySteps p s (l ++ l') r := by
  induction h with
  | nil => exact h'
  | cons h1 h2 _ ih => exact .cons h1 h2 (ih h')

/-- The statements of a text without top level comments. -/
theorem parse_rounds {s : Str} (h : NoLine ['%', '!'] s) {n : Nat} (hn : s.length < n) :
    ∃ r, ManySteps (statementRound n) s (parse s).statements r ∧ statementRound n r = .err := by
  obtain ⟨l, r, h1, h2, h3⟩ := many0_total (p := statementRound n) s
  have hc : topLevelComment s = .err := by
    rw [topLevelComment, many1]
    exact andThen_err (commentLine_err h)
  have hp : program n s = .ok ⟨none, l⟩ r := by
    rw [program, andThen_ok (opt_err hc)]
    exact pmap_ok h1
  refine ⟨r, ?_, h2⟩
  have : (parse s).statements = l := by
    rw [parse, program_bound (Nat.lt_succ_self _) hn, hp]
    dsimp only
    split <;> rfl
  rw [this]
  exact h3

theorem rounds_parse {s r : Str} {l : List StmtAst} {n : Nat} (h : NoLine ['%', '!'] s)
    (hn : s.length < n) (h1 : ManySteps (statementRound n) s l r) (h2 : statementRound n r = .err) :
    (parse s).statements = l := by
  obtain ⟨r', g1, g2⟩ := parse_rounds h hn
  have e1 := g1.many0 g2
  have e2 := h1.many0 h2
  rw [e1] at e2
  injection e2

theorem noLine_of_noWs {r : Str} (hr : NoWs r) : NoLine ['%', '!'] r := by
  rintro b t hb rfl
  cases b with
  | nil => exact (hr '%' _ rfl).2.1 rfl
  | cons c b =>
    have h1 := (hr c _ rfl).1
    rcases hb c (by simp) with rfl | rfl <;> exact absurd h1 (by decide)

/-- Statements are not affected by what comes after them: a text that starts with well written
statements yields these statements, followed by what the rest of the text yields, whatever it is. -/
theorem parse_after {as : List StmtAst} {w s r : Str} (hw : Ws w) (hs : StmtsText as s)
    (hne : as ≠ []) (hr : NoWs r) (hd : ∀ d ∈ r.head?, d.isDigit = false)
    (hc : NoLine ['%', '!'] (w ++ (s ++ r))) :
    (parse (w ++ (s ++ r))).statements = as ++ (parse r).statements := by
  have hn : s.length ≤ (w ++ (s ++ r)).length := by simp; omega
  have h1 := hs.steps hn hw hne (wsStep_err hr) hd
  have hr' : NoLine ['%', '!'] r := noLine_of_noWs hr
  obtain ⟨r', g1, g2⟩ := parse_rounds hr' (n := (w ++ (s ++ r)).length + 1) (by simp; omega)
  exact rounds_parse hc (Nat.lt_succ_self _) (h1.append g1) g2

theorem statement_not_error {n : Nat} {s r : Str} {a : StmtAst} (h : statement n s = .ok a r) :
    a.isError = false := by
  rw [statement] at h
  obtain ⟨_, _, _, h⟩ := andThen_inv h
  obtain ⟨_, _, _, h⟩ := andThen_inv h
  obtain ⟨_, _, _, h⟩ := andThen_inv h
  obtain ⟨_, _, _, h⟩ := andThen_inv h
  obtain ⟨k, _, hk, h⟩ := andThen_inv h
  obtain ⟨_, _, _, h⟩ := andThen_inv h
  obtain ⟨_, _, _, h⟩ := andThen_inv h
  injection h with h _
  subst h
  rw [statementKind] at hk
  rcases alt_inv hk with hk | ⟨_, hk⟩
  · obtain ⟨d, _, rfl⟩ := pmap_inv hk
    rfl
  · rcases alt_inv hk with hk | ⟨_, hk⟩
    · obtain ⟨d, _, rfl⟩ := pmap_inv hk
      rfl
    · obtain ⟨d, _, rfl⟩ := pmap_inv hk
      rfl

theorem wsoc_fix {s : Str} (h : wsStep s = .err) : wsoc s = .ok () s := wsoc_append' .nil h

theorem round_wsoc {n : Nat} {s t : Str} (h : wsoc s = .ok () t) (ht : wsStep t = .err) :
    statementRound n s = statementRound n t := by
  rw [statementRound, andThen_ok h, andThen_ok (wsoc_fix ht)]

/-- What is skipped after an error: if the text starts with something that cannot be read as a
statement, exactly the text up to the first dot at the end of a line is skipped, and the rest of the
text is read as if it stood alone. -/
theorem parse_error_skips {a r : Str} {b : StmtAst} {l : List StmtAst}
    (ha : NoWs (a ++ '.' :: '\n' :: r)) (hab : Absent ['.', '\n'] (a ++ ['.']))
    (hr : NoLine ['%', '!'] r) (hp : (parse (a ++ '.' :: '\n' :: r)).statements = b :: l)
    (hb : b.isError = true) :
    b = ⟨none, [], .error (a ++ ['.'])⟩ ∧ l = (parse r).statements := by
  generalize hs : a ++ '.' :: '\n' :: r = s at ha hp
  obtain ⟨r', h1, h2⟩ := parse_rounds (noLine_of_noWs ha) (Nat.lt_succ_self s.length)
  rw [hp] at h1
  have hne : s ≠ [] := by
    rw [← hs]
    simp
  have hskip : skipStatement s = .ok (a ++ ['.']) r := by
    have : takeUntil ['.', '\n'] s = .ok a ('.' :: '\n' :: r) := by
      rw [← hs]
      exact takeUntil_append (m := '\n') (t := ['.']) r hab
    rw [skipStatement]
    apply alt_ok
    rw [skipDot, andThen_ok this, andThen_ok (tag1 '.' _)]
    rfl
  cases h1 with
  | @cons _ t _ _ _ g1 g2 g3 =>
    rw [statementRound, andThen_ok (wsoc_none ha)] at g1
    obtain ⟨b', t', g4, g1⟩ := andThen_inv g1
    obtain ⟨_, t'', g5, g1⟩ := andThen_inv g1
    injection g1 with e1 e2
    subst e1 e2
    have hrec : recover (statement (s.length + 1)) s =
        pmap (fun t => ⟨none, [], .error t⟩) skipStatement s := by
      cases e : statement (s.length + 1) s with
      | ok a2 r2 =>
        rw [recover_ok e] at g4
        injection g4 with g4 _
        subst g4
        rw [statement_not_error e] at hb
        cases hb
      | err => simp [recover, e, hne]
      | fail => simp [recover, e, hne]
    rw [hrec, pmap_ok hskip] at g4
    injection g4 with g4 g6
    subst g6
    refine ⟨g4.symm, ?_⟩
    obtain ⟨t2, k1, k2⟩ := wsoc_total r
    have hu : wsoc r = .ok () t'' := g5
    rw [hu] at k1
    injection k1 with _ k1
    subst k1
    have hn : r.length < s.length + 1 := by
      rw [← hs]
      simp
      omega
    have hround := round_wsoc (n := s.length + 1) hu k2
    cases g3 with
    | nil => exact (rounds_parse hr hn .nil (hround.trans h2)).symm
    | cons j1 j2 j3 =>
      have := Eats.shorter (hround.trans j1)
      exact (rounds_parse hr hn (.cons (hround.trans j1) this j3) h2).symm

/-- A bad statement between good ones: if the text between the good statements cannot be read, it is
reported as one error, and all statements before and after it are read as written. -/
theorem parse_one_error {as bs : List StmtAst} {w s a w' s' : Str} {b : StmtAst} {l : List StmtAst}
    (hw : Ws w) (hs : StmtsText as s) (hne : as ≠ []) (hw' : Ws w') (hs' : StmtsText bs s')
    (hc : NoLine ['%', '!'] (w ++ (s ++ (a ++ '.' :: '\n' :: (w' ++ s')))))
    (hc' : NoLine ['%', '!'] (w' ++ s'))
    (ha : NoWs (a ++ '.' :: '\n' :: (w' ++ s'))) (hab : Absent ['.', '\n'] (a ++ ['.']))
    (hd : ∀ d ∈ (a ++ '.' :: '\n' :: (w' ++ s')).head?, d.isDigit = false)
    (hp : (parse (a ++ '.' :: '\n' :: (w' ++ s'))).statements = b :: l) (hb : b.isError = true) :
    (parse (w ++ (s ++ (a ++ '.' :: '\n' :: (w' ++ s'))))).statements =
      as ++ ⟨none, [], .error (a ++ ['.'])⟩ :: bs := by
  obtain ⟨rfl, rfl⟩ := parse_error_skips ha hab hc' hp hb
  rw [parse_after hw hs hne ha hd hc, hp, (ProgramText.plain hw' hs' hc').parse]
  rfl

end Verif.Parse
