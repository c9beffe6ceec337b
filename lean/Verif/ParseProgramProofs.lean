import Verif.ParseStmtProofs

/-!
# Statements and programs are read as written
-/
namespace Verif.Parse

set_option linter.unusedSimpArgs false

/-! ## Statements without comments and attributes -/

theorem KindText.read {k : KindAst} {s w r : Str} {n : Nat} (h : KindText k s) (hn : s.length ≤ n)
    (hw : Gap w) (hr : ∀ d ∈ r.head?, d.isDigit = false) :
    ∃ r2, statementKind (n + 1) (s ++ (w ++ '.' :: r)) = .ok k r2 ∧ wsoc r2 = .ok () ('.' :: r) := by
  cases h with
  | @fact g s h =>
    refine ⟨w ++ '.' :: r, ?_, wsoc_append hw.1 (noWs_dot r)⟩
    have hh : (s ++ (w ++ '.' :: r)).head? ≠ some '@' := (h.starts.append _).head_ne (by decide)
    rw [statementKind, alt_err (pmap_err (directive_err hh)), alt_err (pmap_err (h.not_rule hn hw hr))]
    exact pmap_ok (h.read hn (ends_dot hw hr))
  | @rule x s h =>
    obtain ⟨r2, e1, e2⟩ := h.read hn hw hr
    refine ⟨r2, ?_, e2⟩
    have hh : (s ++ (w ++ '.' :: r)).head? ≠ some '@' := by
      cases h with
      | rule h1 =>
        rw [List.append_assoc]
        exact ((h1.starts fun _ _ => GuardText.starts).append _).head_ne (by decide)
      | noHead => simp
    rw [statementKind, alt_err (pmap_err (directive_err hh))]
    exact alt_ok (pmap_ok e1)
  | @directive x s h =>
    obtain ⟨r2, e1, e2⟩ := h.read hn hw hr
    exact ⟨r2, alt_ok (pmap_ok e1), e2⟩

/-- How a statement can start. -/
theorem KindText.head {k : KindAst} {s : Str} (h : KindText k s) :
    ∃ (c : Char) (s' : Str), s = c :: s' ∧ (Start c ∨ c = '@') ∧ (c = '#' → s'.head? ≠ some '[') := by
  have hg : ∀ {g : Guard} {s : Str}, GuardText g s → ∀ r, Starts (s ++ r) ∧
      ∀ x, s ++ r = '#' :: x → x.head? ≠ some '[' := by
    intro g s h r
    refine ⟨h.starts.append r, ?_⟩
    intro x hx hb
    obtain ⟨y, rfl⟩ : ∃ y, x = '[' :: y := by
      cases x with
      | nil => simp at hb
      | cons c x =>
        simp only [List.head?_cons, Option.some.injEq] at hb
        exact ⟨x, by rw [hb]⟩
    obtain ⟨c, s', rfl, hc⟩ := h.starts
    simp only [List.cons_append, List.cons.injEq] at hx
    obtain ⟨rfl, hx⟩ := hx
    cases s' with
    | nil =>
      have := h.read (r := ['.']) (n := 1) (by simp) (ends_dot gap_nil (by simp))
      have h2 : guard 2 ('#' :: ['.']) = .err := guard_hash 2 (by simp; decide)
      rw [show ['#'] ++ ['.'] = '#' :: ['.'] from rfl, h2] at this
      cases this
    | cons d s' =>
      simp only [List.cons_append, List.cons.injEq] at hx
      obtain ⟨rfl, _⟩ := hx
      have := h.read (r := ['.']) (Nat.le_refl _) (ends_dot gap_nil (by simp))
      rw [List.cons_append, List.cons_append, guard_bracket] at this
      cases this
  cases h with
  | @fact g s h =>
    obtain ⟨h1, h2⟩ := hg h []
    rw [List.append_nil] at h1 h2
    obtain ⟨c, s', rfl, hc⟩ := h1
    refine ⟨c, s', rfl, Or.inl hc, ?_⟩
    rintro rfl
    exact h2 s' rfl
  | @rule x s h =>
    cases h with
    | @rule hd b s1 w w' s' h1 =>
      have hl : ∀ {as s}, ListText GuardText as s → ∀ r, Starts (s ++ r) ∧
          ∀ x, s ++ r = '#' :: x → x.head? ≠ some '[' := by
        intro as s h r
        cases h with
        | one h => exact hg h r
        | more h =>
          rw [List.append_assoc]
          exact hg h _
      obtain ⟨g1, g2⟩ : Starts (s1 ++ (w ++ ':' :: '-' :: (w' ++ s'))) ∧
          ∀ x, s1 ++ (w ++ ':' :: '-' :: (w' ++ s')) = '#' :: x → x.head? ≠ some '[' := by
        cases h1 with
        | list h => exact hl h _
        | trailing h =>
          rw [List.append_assoc]
          exact hl h _
      obtain ⟨c, y, hy, hc⟩ := g1
      refine ⟨c, y, hy, Or.inl hc, ?_⟩
      rintro rfl
      exact g2 y hy
    | noHead => exact ⟨_, _, rfl, Or.inl (by decide), fun h => absurd h (by decide)⟩
  | directive h =>
    cases h <;> exact ⟨'@', _, rfl, Or.inr rfl, fun h => absurd h (by decide)⟩

/-! ## Attributes -/

theorem attributeP_err {n : Nat} {s : Str} (h : ∀ x, s = '#' :: x → x.head? ≠ some '[') :
    attributeP n s = .err := by
  rw [attributeP]
  apply andThen_err
  rw [bracketed]
  apply andThen_err
  cases s with
  | nil => exact tag_nil_err _ _
  | cons c s =>
    by_cases hc : c = '#'
    · subst hc
      exact tag_second (h s rfl)
    · exact tag_ne _ _ (Ne.symm hc)

theorem attributeP_ok {t : Tag} {es : List Ex} {w s w1 w2 r : Str} {n : Nat} (hw : Ws w)
    (h : Written (.complex (.atom t es)) s) (hw1 : Gap w1) (hw2 : Ws w2) (hn : s.length ≤ n)
    (hr : NoWs r) :
    attributeP (n + 1) ('#' :: '[' :: (w ++ (s ++ (w1 ++ ']' :: (w2 ++ r))))) = .ok (.atom t es) r := by
  have hs : Starts s := h.startClaim
  have ha : atom (expression (n + 1)) (s ++ (w1 ++ ']' :: (w2 ++ r))) =
      .ok (.atom t es) (w1 ++ ']' :: (w2 ++ r)) :=
    complex_atom (h.claim (n + 1) (by omega) _ (stops_of hw1 (by decide)).after).1
  have hb : bracketed ['#', '['] [']'] (atom (expression (n + 1)))
      ('#' :: '[' :: (w ++ (s ++ (w1 ++ ']' :: (w2 ++ r))))) = .ok (.atom t es) (w2 ++ r) := by
    rw [bracketed, andThen_ok (tag2 '#' '[' _), andThen_ok (wsoc_append hw (hs.append _).noWs),
      andThen_ok ha, andThen_ok (wsoc_append hw1.1 (noWs_cons (by decide) (by decide) (by decide))),
      andThen_ok (tag1 ']' _)]
    rfl
  rw [attributeP, andThen_ok hb, andThen_ok (wsoc_append hw2 hr)]
  rfl

theorem start_facts {c : Char} (h : Start c ∨ c = '@') : isSpace c = false ∧ c ≠ '%' ∧ c ≠ '/' := by
  rcases h with h | rfl
  · have hw : Starts [c] := ⟨c, [], rfl, h⟩
    obtain ⟨h1, h2, _⟩ := hw.noWs c [] rfl
    refine ⟨h1, h2, ?_⟩
    rintro rfl
    revert h
    decide
  · decide

theorem KindText.noWs {k : KindAst} {s : Str} (h : KindText k s) (r : Str) : NoWs (s ++ r) := by
  obtain ⟨c, s', rfl, hc, _⟩ := h.head
  have := start_facts hc
  exact noWs_cons this.1 this.2.1 this.2.2

/-- The attributes of a statement, followed by something that does not start with white space or an
attribute. -/
theorem AttributesText.steps {as : List Ex} {s r : Str} {n : Nat} (h : AttributesText as s)
    (hn : s.length ≤ n) (hr : NoWs r) : ManySteps (attributeP (n + 1)) (s ++ r) as r := by
  induction h with
  | nil => exact .nil
  | @cons t es as w s w1 w2 s' hw ha hw1 hw2 hl ih =>
    simp only [List.length_append, List.length_cons] at hn
    have hs' : NoWs (s' ++ r) := by
      cases hl with
      | nil => exact hr
      | cons => exact noWs_cons (by decide) (by decide) (by decide)
    refine .cons (t := s' ++ r) ?_ ?_ (ih (by omega))
    · have e0 : '#' :: '[' :: (w ++ (s ++ (w1 ++ ']' :: (w2 ++ s')))) ++ r =
          '#' :: '[' :: (w ++ (s ++ (w1 ++ ']' :: (w2 ++ (s' ++ r))))) := by simp
      rw [e0]
      exact attributeP_ok hw ha hw1 hw2 (by omega) hs'
    · simp only [List.length_append, List.length_cons]
      omega

/-! ## Comments with a mark -/

theorem commentLine_ok {mark b c eol s : Str} {m : Char} {ms : Str} (hm : mark = m :: ms)
    (hm' : m ≠ ' ' ∧ m ≠ '\t') (hb : Blanks b) (hc : ∀ d ∈ c, d ≠ '\r' ∧ d ≠ '\n') (he : Eol eol) :
    commentLine mark (b ++ (mark ++ (c ++ (eol ++ s)))) = .ok c s := by
  have h1 : (b ++ (mark ++ (c ++ (eol ++ s)))).dropWhile (fun c => c == ' ' || c == '\t') =
      mark ++ (c ++ (eol ++ s)) := by
    refine (takeWhile_append_stop (f := fun c => c == ' ' || c == '\t') (a := b) ?_ ?_).2
    · intro d hd
      simpa using hb d hd
    · subst hm
      simpa using hm'
  rw [commentLine, h1, andThen_ok (tag_append mark _), andThen_ok (notLineEnding_eol hc he),
    andThen_ok (lineEnd_eol he)]
  rfl

theorem commentLine_err {mark s : Str} (h : NoLine mark s) : commentLine mark s = .err := by
  rw [commentLine]
  apply andThen_err
  apply tag_err
  rintro ⟨t, ht⟩
  refine h (s.takeWhile fun c => c == ' ' || c == '\t') t ?_ ?_
  · intro c hc
    simpa using mem_takeWhile hc
  · rw [ht]
    exact List.takeWhile_append_dropWhile.symm

theorem CommentLines.read {mark : Str} {m : Char} {ms : Str} (hm : mark = m :: ms)
    (hm' : m ≠ ' ' ∧ m ≠ '\t') {cs : List Str} {s r : Str} (h : CommentLines mark cs s)
    (hr : NoLine mark r) : many1 (commentLine mark) (s ++ r) = .ok cs r := by
  have hs : ∀ {cs : List Str} {s : Str}, CommentLines mark cs s →
      ManySteps (commentLine mark) (s ++ r) cs r := by
    intro cs s h
    induction h with
    | @one b c eol hb hc he =>
      have e0 : b ++ (mark ++ (c ++ eol)) ++ r = b ++ (mark ++ (c ++ (eol ++ r))) := by simp
      refine .cons (t := r) ?_ ?_ .nil
      · rw [e0]
        exact commentLine_ok hm hm' hb hc he
      · subst hm
        simp only [List.length_append, List.length_cons]
        omega
    | @more b c eol s cs hb hc he hl ih =>
      have e0 : b ++ (mark ++ (c ++ (eol ++ s))) ++ r = b ++ (mark ++ (c ++ (eol ++ (s ++ r)))) := by
        simp
      refine .cons (t := s ++ r) ?_ ?_ ih
      · rw [e0]
        exact commentLine_ok hm hm' hb hc he
      · subst hm
        simp only [List.length_append, List.length_cons]
        omega
  have h1 := hs h
  have hne : cs ≠ [] := by
    rintro rfl
    cases h
  generalize s ++ r = x at h1
  cases h1 with
  | nil => exact absurd rfl hne
  | cons g1 g2 g3 =>
    rw [many1, andThen_ok g1]
    exact pmap_ok (g3.many0 (commentLine_err hr))

theorem noLine_append {mark w r : Str} {m : Char} {ms : Str} (hm : mark = m :: ms)
    (hw : NoLine mark w) (hr : ∀ c ∈ r.head?, c ∉ ' ' :: '\t' :: mark) : NoLine mark (w ++ r) := by
  intro b t hb he
  have hrne : ∀ c x, r = c :: x → c ∈ ' ' :: '\t' :: mark → False := by
    rintro c x rfl hc
    exact hr c rfl hc
  rcases List.append_eq_append_iff.mp he with ⟨a, h1, h2⟩ | ⟨a, h1, h2⟩
  · cases a with
    | nil =>
      subst hm
      exact hrne m (ms ++ t) (by simpa using h2) (by simp)
    | cons c a =>
      refine hrne c (a ++ (mark ++ t)) (by simpa using h2) ?_
      have := hb c (by simp [h1])
      rcases this with rfl | rfl <;> simp
  · rcases List.append_eq_append_iff.mp h2 with ⟨a', h3, h4⟩ | ⟨a', h3, h4⟩
    · exact hw b a' hb (by rw [h1, h3])
    · cases a' with
      | nil => exact hw b [] hb (by rw [h1]; simpa using h3.symm)
      | cons c a' =>
        exact hrne c (a' ++ t) (by simpa using h4) (by simp [h3])

/-! ## Statements -/

theorem commentMark_doc {s : Str} (h : s.head? ≠ some '%') :
    commentMark ('%' :: '%' :: '%' :: s) = .err := by
  have h4 : ['%', '%', '%', '%'].isPrefixOf ('%' :: '%' :: '%' :: s) = false := by
    apply isPrefixOf_false
    rintro ⟨x, hx⟩
    simp only [List.cons_append, List.nil_append, List.cons.injEq, true_and] at hx
    rw [← hx] at h
    exact h rfl
  have h3 : ['%', '%', '%'].isPrefixOf ('%' :: '%' :: '%' :: s) = true := by
    simp [List.isPrefixOf]
  rw [commentMark, h4, h3]
  rfl

theorem wsStep_doc {s : Str} (h : s.head? ≠ some '%') : wsStep ('%' :: '%' :: '%' :: s) = .err := by
  rw [wsStep, alt_err (pmap_err (takeWhile1_err (by simp; rfl))), lineComment,
    alt_err (andThen_err (commentMark_doc h)), closedComment]
  exact andThen_err (tag_ne _ _ (by decide))

theorem docLines_head {c : Str} {cs : List Str} {s : Str} (h : CommentLines ['%', '%', '%'] (c :: cs) s)
    (hp : ['%', '%', '%'] <+: s) (hc : c.head? ≠ some '%') :
    ∃ x, s = '%' :: '%' :: '%' :: x ∧ ∀ r, (x ++ r).head? ≠ some '%' := by
  have key : ∀ (b y eol : Str), Blanks b → Eol eol → ['%', '%', '%'] <+: b ++ ('%' :: '%' :: '%' :: (c ++ (eol ++ y))) →
      b = [] ∧ ∀ r, (c ++ (eol ++ y) ++ r).head? ≠ some '%' := by
    intro b y eol hb he hp
    constructor
    · cases b with
      | nil => rfl
      | cons d b =>
        obtain ⟨x, hx⟩ := hp
        simp only [List.cons_append, List.cons.injEq] at hx
        obtain ⟨rfl, _⟩ := hx
        rcases hb '%' (by simp) with h | h <;> exact absurd h (by decide)
    · intro r
      cases c with
      | nil => rcases he with rfl | rfl <;> simp
      | cons d c => simpa using hc
  cases h with
  | @one b _ eol hb hcc he =>
    obtain ⟨rfl, h⟩ := key b [] eol hb he (by simpa using hp)
    exact ⟨c ++ eol, rfl, by simpa using h⟩
  | @more b _ eol s _ hb hcc he _ =>
    obtain ⟨rfl, h⟩ := key b s eol hb he (by simpa using hp)
    exact ⟨c ++ (eol ++ s), rfl, by simpa using h⟩

theorem docComment_err {s : Str} (h : ∀ c ∈ s.head?, c ∉ [' ', '\t', '%']) : docComment s = .err := by
  rw [docComment, many1]
  apply andThen_err
  apply commentLine_err
  have hw : NoLine ['%', '%', '%'] ([] : Str) := by
    intro b t _ he
    have := congrArg List.length he
    simp at this
  have := noLine_append (r := s) rfl hw (by
    intro c hc hm
    exact h c hc ((by decide : ∀ c ∈ ' ' :: '\t' :: ['%', '%', '%'], c ∈ [' ', '\t', '%']) c hm))
  simpa using this

theorem StmtText.wsStep {a : StmtAst} {s : Str} (h : StmtText a s) (r : Str) :
    wsStep (s ++ r) = .err := by
  cases h with
  | @mk d as k s s1 s2 w hd ha hk hw =>
    cases hd with
    | none =>
      refine wsStep_err ?_
      cases ha with
      | nil =>
        simp only [List.nil_append, List.append_assoc]
        exact hk.noWs _
      | cons => exact noWs_cons (by decide) (by decide) (by decide)
    | @some c cs s w0 h1 h2 h3 =>
      obtain ⟨x, rfl, hx⟩ := docLines_head h1 h2 h3
      simp only [List.append_assoc, List.cons_append]
      exact wsStep_doc (hx _)

theorem StmtText.read {a : StmtAst} {s r : Str} {n : Nat} (h : StmtText a s) (hn : s.length ≤ n)
    (hr : ∀ d ∈ r.head?, d.isDigit = false) : statement (n + 1) (s ++ r) = .ok a r := by
  cases h with
  | @mk d as k s s1 s2 w hd ha hk hw =>
    simp only [List.length_append, List.length_cons] at hn
    have e0 : s ++ (s1 ++ (s2 ++ (w ++ ['.']))) ++ r = s ++ (s1 ++ (s2 ++ (w ++ '.' :: r))) := by simp
    obtain ⟨r2, e1, e2⟩ := hk.read (n := n) (by omega) hw hr
    obtain ⟨c, s2', hs2, hc, hb⟩ := hk.head
    have hkw : NoWs (s2 ++ (w ++ '.' :: r)) := hk.noWs _
    have e3 : many0 (attributeP (n + 1)) (s1 ++ (s2 ++ (w ++ '.' :: r))) =
        .ok as (s2 ++ (w ++ '.' :: r)) := by
      refine (ha.steps (by omega) hkw).many0 (attributeP_err ?_)
      intro x hx
      rw [hs2, List.cons_append, List.cons.injEq] at hx
      obtain ⟨rfl, rfl⟩ := hx
      have h1 := hb rfl
      cases s2' with
      | nil =>
        have h2 := hw.head
        intro hh
        have hh' : (w ++ '.' :: r).head? = some '[' := hh
        have : '[' ∈ [' ', '\t', '\r', '\n', '/', '.'] :=
          head_append (p := fun c => c ∈ [' ', '\t', '\r', '\n', '/', '.']) (fun d hd =>
            (by decide : ∀ c ∈ [' ', '\t', '\r', '\n', '/'], c ∈ [' ', '\t', '\r', '\n', '/', '.']) d
              (h2 d hd)) (head_cons (by decide)) '[' hh'
        revert this
        decide
      | cons d s2' => simpa using h1
    have hrest : NoWs (s1 ++ (s2 ++ (w ++ '.' :: r))) ∧
        ∀ c ∈ (s1 ++ (s2 ++ (w ++ '.' :: r))).head?, c ∉ [' ', '\t', '%'] := by
      have : ∃ (c : Char) (x : Str), s1 ++ (s2 ++ (w ++ '.' :: r)) = c :: x ∧ isSpace c = false ∧
          c ≠ '%' ∧ c ≠ '/' := by
        cases ha with
        | nil =>
          rw [List.nil_append, hs2]
          exact ⟨c, _, rfl, start_facts hc⟩
        | cons => exact ⟨'#', _, rfl, by decide, by decide, by decide⟩
      obtain ⟨c, x, hx, g1, g2, g3⟩ := this
      rw [hx]
      refine ⟨noWs_cons g1 g2 g3, head_cons ?_⟩
      simp only [List.mem_cons, List.not_mem_nil, or_false]
      rintro (rfl | rfl | rfl)
      · exact absurd g1 (by decide)
      · exact absurd g1 (by decide)
      · exact g2 rfl
    obtain ⟨r1, e4, e5⟩ : ∃ r1, opt docComment (s ++ (s1 ++ (s2 ++ (w ++ '.' :: r)))) = .ok d r1 ∧
        wsoc r1 = .ok () (s1 ++ (s2 ++ (w ++ '.' :: r))) := by
      cases hd with
      | none => exact ⟨_, opt_err (docComment_err hrest.2), wsoc_none hrest.1⟩
      | @some c cs s w0 h1 h2 h3 hw0 hnl =>
        refine ⟨w0 ++ (s1 ++ (s2 ++ (w ++ '.' :: r))), opt_ok ?_, wsoc_append hw0 hrest.1⟩
        rw [docComment, List.append_assoc]
        refine h1.read rfl (by decide) (noLine_append rfl hnl ?_)
        intro c hc hm
        exact hrest.2 c hc ((by decide : ∀ c ∈ ' ' :: '\t' :: ['%', '%', '%'], c ∈ [' ', '\t', '%']) c hm)
    rw [e0, statement, andThen_ok e4, andThen_ok e5, andThen_ok e3, andThen_ok (wsoc_none hkw),
      andThen_ok e1, andThen_ok e2, andThen_ok (tag1 '.' r)]
    rfl

/-! ## Programs -/

theorem recover_ok {p : P StmtAst} {s r : Str} {a : StmtAst} (h : p s = .ok a r) :
    recover p s = .ok a r := by
  simp [recover, h]

theorem round_ok {a : StmtAst} {s r w0 w : Str} {n : Nat} (h : StmtText a s) (hn : s.length ≤ n)
    (hw0 : Ws w0) (hw : Ws w) (hr : wsStep r = .err)
    (hd : ∀ d ∈ (w ++ r).head?, d.isDigit = false) :
    statementRound (n + 1) (w0 ++ (s ++ (w ++ r))) = .ok a r := by
  rw [statementRound, andThen_ok (wsoc_append' hw0 (h.wsStep _)), andThen_ok (recover_ok (h.read hn hd)),
    andThen_ok (wsoc_append' hw hr)]
  rfl

/-- A list of statements, followed by a text that does not start with white space. -/
theorem StmtsText.steps {as : List StmtAst} {s w0 r : Str} {n : Nat} (h : StmtsText as s)
    (hn : s.length ≤ n) (hw0 : Ws w0) (hne : as ≠ []) (hr : wsStep r = .err)
    (hd : ∀ d ∈ r.head?, d.isDigit = false) :
    ManySteps (statementRound (n + 1)) (w0 ++ (s ++ r)) as r := by
  induction h generalizing w0 with
  | nil => exact absurd rfl hne
  | @cons a as s w s' ha hw hl hdig ih =>
    simp only [List.length_append] at hn
    have hpos : 0 < s.length := by
      cases ha with
      | mk => simp only [List.length_append, List.length_cons]; omega
    have e0 : w0 ++ (s ++ (w ++ s') ++ r) = w0 ++ (s ++ (w ++ (s' ++ r))) := by simp
    have hd' : ∀ d ∈ (w ++ (s' ++ r)).head?, d.isDigit = false := by
      intro d hx
      cases hws : w ++ s' with
      | nil =>
        rw [← List.append_assoc, hws] at hx
        exact hd d hx
      | cons c x =>
        rw [← List.append_assoc, hws] at hx
        rw [hws] at hdig
        exact hdig d hx
    have hws : wsStep (s' ++ r) = .err := by
      cases hl with
      | nil => exact hr
      | cons h =>
        rw [List.append_assoc]
        exact h.wsStep _
    rw [e0]
    refine .cons (t := s' ++ r) (round_ok ha (by omega) hw0 hw hws hd') ?_ ?_
    · simp only [List.length_append]
      omega
    · cases hl with
      | nil => exact .nil
      | cons h1 h2 h3 h4 =>
        have := ih (by omega) (w0 := []) .nil (by simp)
        simpa using this

theorem guard_nil (n : Nat) : guard n [] = .err := guard_start (by simp)

theorem statement_nil (n : Nat) : statement n [] = .err := by
  have h1 : docComment [] = .err := docComment_err (by simp)
  have h2 : attributeP n [] = .err := attributeP_err (by simp)
  have h3 : statementKind n [] = .err := by
    rw [statementKind, alt_err (pmap_err (directive_err (by simp))), alt_err (pmap_err _)]
    · exact pmap_err (guard_nil n)
    · rw [rule, andThen_ok (sequence_nil (guard_nil n)), andThen_ok (wsoc_none noWs_nil)]
      exact andThen_err (tag_nil_err _ _)
  rw [statement, andThen_ok (opt_err h1), andThen_ok (wsoc_none noWs_nil), andThen_ok (many0_nil h2),
    andThen_ok (wsoc_none noWs_nil)]
  exact andThen_err h3

theorem round_ws {w : Str} (n : Nat) (hw : wsoc w = .ok () []) : statementRound n w = .err := by
  rw [statementRound, andThen_ok hw]
  apply andThen_err
  simp [recover, statement_nil]

theorem wsStep_nil : wsStep [] = .err := wsStep_err noWs_nil

/-- All statements of a text, with white space before them. -/
theorem StmtsText.many {as : List StmtAst} {s w : Str} {n : Nat} (h : StmtsText as s) (hw : Ws w)
    (hn : s.length ≤ n) :
    ∃ r, many0 (statementRound (n + 1)) (w ++ s) = .ok as r ∧ wsoc r = .ok () [] := by
  by_cases hne : as = []
  · subst hne
    cases h
    have hww : wsoc w = .ok () [] := by simpa using wsoc_append hw noWs_nil
    refine ⟨w, ?_, hww⟩
    rw [List.append_nil]
    exact many0_nil (round_ws _ hww)
  · have h1 := h.steps hn hw hne (r := []) wsStep_nil (by simp)
    rw [List.append_nil] at h1
    exact ⟨[], h1.many0 (round_ws _ (wsoc_none noWs_nil)), wsoc_none noWs_nil⟩

theorem ProgramText.read {p : ProgramAst} {s : Str} {n : Nat} (h : ProgramText p s) (hn : s.length ≤ n) :
    ∃ r, program (n + 1) s = .ok p r ∧ wsoc r = .ok () [] := by
  cases h with
  | @plain as w s hw hs hl =>
    simp only [List.length_append] at hn
    obtain ⟨r, e1, e2⟩ := hs.many (n := n) hw (by omega)
    refine ⟨r, ?_, e2⟩
    have hc : topLevelComment (w ++ s) = .err := by
      rw [topLevelComment, many1]
      exact andThen_err (commentLine_err hl)
    rw [program, andThen_ok (opt_err hc)]
    exact pmap_ok e1
  | @comment cs as t w s ht hw hs hl =>
    simp only [List.length_append] at hn
    obtain ⟨r, e1, e2⟩ := hs.many (n := n) hw (by omega)
    refine ⟨r, ?_, e2⟩
    rw [program, andThen_ok (opt_ok (show topLevelComment _ = _ from ht.read rfl (by decide) hl))]
    exact pmap_ok e1

theorem StmtText.not_error {a : StmtAst} {s : Str} (h : StmtText a s) : a.isError = false := by
  cases h with
  | mk _ _ hk => cases hk <;> rfl

theorem StmtsText.not_error {as : List StmtAst} {s : Str} (h : StmtsText as s) :
    as.any StmtAst.isError = false := by
  induction h with
  | nil => rfl
  | cons h _ _ _ ih => simp [h.not_error, ih]

theorem ProgramText.parse {p : ProgramAst} {s : Str} (h : ProgramText p s) : parse s = .ok p := by
  obtain ⟨r, e1, _⟩ := h.read (Nat.le_refl _)
  have he : p.statements.any StmtAst.isError = false := by
    cases h with
    | plain _ hs => exact hs.not_error
    | comment _ _ hs => exact hs.not_error
  simp [Verif.Parse.parse, e1, he]

end Verif.Parse
