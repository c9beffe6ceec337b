import Verif.ParseSimple

/-!
# Expressions are read as written

The induction over the grammar: every text that is a way of writing an expression is read by the parser
as that expression, whatever follows it.
-/
namespace Verif.Parse

set_option linter.unusedSimpArgs false

/-! ## How expressions start -/

/-- The characters an expression can start with. -/
def Start (c : Char) : Prop :=
  isAlpha c = true ∨ isDigit c = true ∨
    c ∈ ['#', '{', '(', '~', '<', ':', '_', '+', '-', '"', '?', '!', '$']

def Starts (s : Str) : Prop := ∃ (c : Char) (s' : Str), s = c :: s' ∧ Start c

instance (c : Char) : Decidable (Start c) := by unfold Start; infer_instance

theorem Starts.append {s : Str} (h : Starts s) (r : Str) : Starts (s ++ r) := by
  obtain ⟨c, s', rfl, hc⟩ := h
  exact ⟨c, s' ++ r, rfl, hc⟩

theorem Starts.head_ne {s : Str} (h : Starts s) {d : Char} (hd : ¬ Start d) : s.head? ≠ some d := by
  obtain ⟨c, s', rfl, hc⟩ := h
  simp only [List.head?_cons, ne_eq, Option.some.injEq]
  rintro rfl
  exact hd hc

theorem Starts.noWs {s : Str} (h : Starts s) : NoWs s := by
  obtain ⟨c, s', rfl, hc⟩ := h
  refine noWs_cons ?_ ?_ ?_
  · cases h : isSpace c with
    | false => rfl
    | true =>
      exfalso
      simp only [isSpace, Bool.or_eq_true, beq_iff_eq] at h
      rcases h with ((rfl | rfl) | rfl) | rfl <;> revert hc <;> decide
  · rintro rfl
    revert hc
    decide
  · rintro rfl
    revert hc
    decide

theorem TagText.starts {t : Tag} {s : Str} (h : TagText t s) : Starts s := by
  obtain ⟨c, s', rfl, hc⟩ := h.head
  refine ⟨c, s', rfl, ?_⟩
  rcases hc with h | rfl | rfl
  · exact Or.inl h
  · decide
  · decide

theorem sameName_starts {nm k : Str} (hk : k ∈ opTable) (h : SameName nm k) :
    ∃ (c : Char) (s' : Str), nm = c :: s' ∧ isAlpha c = true := by
  have hl := (sameName_iff nm k).mp h
  obtain ⟨h1, h2⟩ := opTable_letters k hk
  cases nm with
  | nil =>
    have : k = [] := by simpa [lowers] using hl.symm
    exact absurd this h1
  | cons c s' =>
    refine ⟨c, s', rfl, ?_⟩
    cases hc : isAlpha c with
    | true => rfl
    | false =>
      have := h2 c (by rw [← hl]; simp [lowers, lower_of_not_alpha hc])
      rw [hc] at this
      exact Bool.noConfusion this

theorem BasicText.starts {e : Ex} {s : Str} (h : BasicText e s) : Starts s := by
  cases h with
  | blank => exact ⟨_, _, rfl, by decide⟩
  | true => exact ⟨_, _, rfl, by decide⟩
  | false => exact ⟨_, _, rfl, by decide⟩
  | constant ht => exact ht.starts
  | encoded => exact ⟨_, _, rfl, by decide⟩
  | @number n sg fr es mk h0 hi =>
    have hh := number_head (r := fr ++ (es ++ mk)) h0 hi
    cases hs : sg ++ (n.int ++ (fr ++ (es ++ mk))) with
    | nil => simp [hi.1] at hs
    | cons c s' =>
      rw [hs] at hh
      refine ⟨c, s', rfl, ?_⟩
      rcases hh c (by simp) with h | rfl | rfl
      · exact Or.inr (Or.inl h)
      · decide
      · decide
  | rdf => exact ⟨_, _, rfl, by decide⟩
  | string => exact ⟨_, _, rfl, by decide⟩
  | multiline => exact ⟨_, _, rfl, by decide⟩
  | @«variable» k => exact ⟨k.mark, _, rfl, by cases k <;> decide⟩
  | anonymous => exact ⟨_, _, rfl, by decide⟩

/-- Where the texts of each category can start. -/
def StartClaim : Cat → Str → Prop
  | .seq _, s => s = [] ∨ Starts s
  | .pairSeq _, s => s = [] ∨ Starts s
  | .elements _ _, _ => True
  | _, s => Starts s

theorem Written.startClaim {c : Cat} {s : Str} (h : Written c s) : StartClaim c s := by
  induction h with
  | aggregation => exact ⟨_, _, rfl, by decide⟩
  | aggregationDistinct => exact ⟨_, _, rfl, by decide⟩
  | operation hk hn =>
    obtain ⟨c, s', rfl, hc⟩ := sameName_starts hk hn
    exact ⟨c, _, rfl, Or.inl hc⟩
  | atom ht => exact ht.starts.append _
  | map => exact ⟨_, _, rfl, by decide⟩
  | taggedMap ht => exact ht.starts.append _
  | tuple => exact ⟨_, _, rfl, by decide⟩
  | formatString => exact ⟨_, _, rfl, by decide⟩
  | multilineFormatString => exact ⟨_, _, rfl, by decide⟩
  | noElements => trivial
  | text => trivial
  | openBrace => trivial
  | closeBrace => trivial
  | element => trivial
  | basic hb => exact hb.starts
  | complex _ ih => exact ih
  | factor _ ih => exact ih
  | parenSimple => exact ⟨_, _, rfl, by decide⟩
  | parenArith => exact ⟨_, _, rfl, by decide⟩
  | product _ ih => exact ih
  | mul _ _ _ _ _ ih _ => exact Starts.append ih _
  | sum _ ih => exact ih
  | add _ _ _ _ _ ih _ => exact Starts.append ih _
  | negation => exact ⟨_, _, rfl, by decide⟩
  | simpleExpr _ ih => exact ih
  | negatedExpr _ ih => exact ih
  | arithExpr _ _ ih => exact ih
  | parenExpr => exact ⟨_, _, rfl, by decide⟩
  | one _ ih => exact ih
  | more _ _ _ _ ih _ => exact Starts.append ih _
  | noSeq => exact Or.inl rfl
  | listSeq _ ih => exact Or.inr ih
  | trailing _ _ ih => exact Or.inr (Starts.append ih _)
  | onePair _ _ _ _ ih _ => exact Starts.append ih _
  | morePairs _ _ _ _ _ _ _ ih _ _ => exact Starts.append ih _
  | noPairs => exact Or.inl rfl
  | pairSeq _ ih => exact Or.inr ih
  | trailingPairs _ _ ih => exact Or.inr (Starts.append ih _)

/-! ## Expressions do not start with a closing bracket -/

theorem variableP_err {s : Str} (h1 : s.head? ≠ some '?') (h2 : s.head? ≠ some '!')
    (h3 : s.head? ≠ some '$') (h4 : s.head? ≠ some '_') : variableP s = .err := by
  rw [variableP, alt_err]
  · exact pmap_err (tag_head h4)
  · apply andThen_err
    rw [alt_err (pmap_err (tag_head h1)), alt_err (pmap_err (tag_head h2))]
    exact pmap_err (tag_head h3)

theorem basic_err {s : Str} (h : ∀ c ∈ s.head?, ¬ Start c ∨ c ∈ ['#', '{', '(', '~']) :
    basic s = .err := by
  have hne : ∀ c, Start c → c ∉ ['#', '{', '(', '~'] → s.head? ≠ some c := by
    intro c hc hm he
    rcases h c he with h | h
    · exact h hc
    · exact hm h
  have hal : ∀ c ∈ s.head?, isAlpha c = false := by
    intro c hc
    cases ha : isAlpha c with
    | false => rfl
    | true =>
      rcases h c hc with h | h
      · exact absurd (Or.inl ha) h
      · exact absurd ha (by
          have := (by decide : ∀ c ∈ ['#', '{', '(', '~'], isAlpha c = false) c h
          rw [this]; decide)
  have hdi : ∀ c ∈ s.head?, isDigit c = false := by
    intro c hc
    cases ha : isDigit c with
    | false => rfl
    | true =>
      rcases h c hc with h | h
      · exact absurd (Or.inr (Or.inl ha)) h
      · exact absurd ha (by
          have := (by decide : ∀ c ∈ ['#', '{', '(', '~'], isDigit c = false) c h
          rw [this]; decide)
  rw [basic_plain (hne _ (by decide) (by decide)),
    alt_err (encodedNumber_err (hne _ (by decide) (by decide))), alt_err (number_err _),
    alt_err (rdfLiteral_err_head (hne _ (by decide) (by decide))),
    alt_err (stringLiteral_err_head (hne _ (by decide) (by decide)))]
  · exact variableP_err (hne _ (by decide) (by decide)) (hne _ (by decide) (by decide))
      (hne _ (by decide) (by decide)) (hne _ (by decide) (by decide))
  · intro c hc
    refine ⟨hdi c hc, ?_, ?_⟩
    · rintro rfl
      exact hne _ (by decide) (by decide) hc
    · rintro rfl
      exact hne _ (by decide) (by decide) hc
  · intro c hc
    refine ⟨hal c hc, ?_, ?_⟩
    · rintro rfl
      exact hne _ (by decide) (by decide) hc
    · rintro rfl
      exact hne _ (by decide) (by decide) hc

theorem parenthesized_err {ex : P Ex} {s : Str} (h : s.head? ≠ some '(') :
    parenthesized ex s = .err := by
  rw [parenthesized]
  exact pmap_err (bracketed_err h)

theorem sum_err {ex ar : P Ex} {s : Str} (h : factor ex ar s = .err) : sum ex ar s = .err := by
  rw [sum, product]
  exact andThen_err (andThen_err h)

theorem arithmetic_err {ex ar : P Ex} {s : Str} (h : factor ex ar s = .err) :
    arithmetic ex ar s = .err := by
  rw [arithmetic, sum_err h]

theorem nonArith_err_head {ex : P Ex} {s : Str} (h : ∀ c ∈ s.head?, ¬ Start c) :
    nonArith ex s = .err := by
  rw [nonArith, alt_err]
  · exact basic_err fun c hc => Or.inl (h c hc)
  · apply complex_err_head
    intro c hc
    have h1 := h c hc
    constructor
    · cases ha : isAlpha c with
      | false => rfl
      | true => exact absurd (Or.inl ha) h1
    · intro hm
      exact h1 ((by decide : ∀ c ∈ complexChars, Start c) c hm)

theorem expr_err_head {n : Nat} {s : Str} (h : ∀ c ∈ s.head?, ¬ Start c) : (both n).1 s = .err := by
  cases n with
  | zero => rfl
  | succ n =>
    have hp : s.head? ≠ some '(' := fun he => h _ he (by decide)
    have hn : nonArith (both n).1 s = .err := nonArith_err_head h
    have hf : factor (both n).1 (both n).2 s = .err := by
      rw [factor, alt_err (pmap_err (bracketed_err hp)), alt_err hn]
      exact bracketed_err hp
    show expr (both n).1 (both n).2 s = .err
    rw [expr, alt_err (arithmetic_err hf), alt_err (parenthesized_err hp)]
    exact hn

/-! ## Lists -/

theorem stops_of {w r : Str} {c : Char} (hw : Gap w)
    (hc : c ∈ [')', ',', '}', '=', '!', '<', '>', ']']) : Stops (w ++ c :: r) :=
  Or.inr ⟨w, c, r, rfl, hw, Or.inl hc⟩

theorem gap_nil : Gap [] := ⟨.nil, by simp⟩

theorem sepComma_append {w w' t : Str} (hw : Ws w) (hw' : Ws w') (ht : NoWs t) :
    sepComma (w ++ ',' :: (w' ++ t)) = .ok () t := by
  rw [sepComma, andThen_ok (wsoc_append hw (noWs_cons (by decide) (by decide) (by decide))),
    andThen_ok (tag1 ',' _)]
  exact wsoc_append hw' ht

theorem sepComma_err {w t : Str} (hw : Ws w) (ht : NoWs t) (hc : t.head? ≠ some ',') :
    sepComma (w ++ t) = .err := by
  rw [sepComma, andThen_ok (wsoc_append hw ht)]
  exact andThen_err (tag_head hc)

/-- One more element of a list. -/
abbrev nextElem (p : P α) : P α := andThen sepComma fun _ => p

/-- The list `es` is read from `s ++ r`, up to `r`. -/
def ListOk (p : P α) (es : List α) (s r : Str) : Prop :=
  ∃ (a : α) (l : List α) (r0 : Str), es = a :: l ∧ p (s ++ r) = .ok a r0 ∧
    r0.length ≤ (s ++ r).length ∧ ManySteps (nextElem p) r0 l r

theorem ListOk.one {p : P α} {a : α} {s r : Str} (h : p (s ++ r) = .ok a r) : ListOk p [a] s r :=
  ⟨a, [], r, rfl, h, by simp, .nil⟩

theorem ListOk.more {p : P α} {a : α} {es : List α} {s w w' s' r : Str} (hw : Ws w) (hw' : Ws w')
    (hs : Starts s')
    (h : p (s ++ (w ++ ',' :: (w' ++ (s' ++ r)))) = .ok a (w ++ ',' :: (w' ++ (s' ++ r))))
    (hl : ListOk p es s' r) : ListOk p (a :: es) (s ++ (w ++ ',' :: (w' ++ s'))) r := by
  obtain ⟨b, l, r0, rfl, h1, h2, h3⟩ := hl
  refine ⟨a, b :: l, w ++ ',' :: (w' ++ (s' ++ r)), rfl, by simpa using h, by simp, ?_⟩
  refine .cons (t := r0) ?_ ?_ h3
  · rw [nextElem, andThen_ok (sepComma_append hw hw' (hs.append r).noWs)]
    exact h1
  · simp only [List.length_append, List.length_cons] at h2 ⊢
    omega

theorem ListOk.sepList {p : P α} {es : List α} {s r : Str} (h : ListOk p es s r)
    (he : nextElem p r = .err) : sepList1 sepComma p (s ++ r) = .ok es r := by
  obtain ⟨a, l, r0, rfl, h1, h2, h3⟩ := h
  rw [sepList1, andThen_ok h1]
  exact pmap_ok (h3.many0 he)

/-- The bracketed sequence `es` is read from `s`, with white space around it. -/
def SeqOk (p : P α) (es : List α) (s : Str) : Prop :=
  ∀ (w w' : Str) (cl : Char) (r : Str), Ws w → Gap w' → cl ∈ [')', '}'] →
    ∃ r1 r2 : Str, wsoc (w ++ (s ++ (w' ++ cl :: r))) = .ok () r1 ∧ sequence p r1 = .ok es r2 ∧
      wsoc r2 = .ok () (cl :: r)

theorem noWs_close {cl : Char} (h : cl ∈ [')', '}']) (r : Str) : NoWs (cl :: r) := by
  have := (by decide : ∀ c ∈ [')', '}'], isSpace c = false ∧ c ≠ '%' ∧ c ≠ '/') cl h
  exact noWs_cons this.1 this.2.1 this.2.2

theorem SeqOk.nil {p : P α} (hp : ∀ cl ∈ [')', '}'], ∀ r, p (cl :: r) = .err) : SeqOk p [] [] := by
  intro w w' cl r hw hw' hcl
  refine ⟨cl :: r, cl :: r, ?_, ?_, wsoc_none (noWs_close hcl r)⟩
  · rw [List.nil_append, ← List.append_assoc]
    exact wsoc_append (hw.append hw'.1) (noWs_close hcl r)
  · have h0 : sepList1 sepComma p (cl :: r) = .err := by
      rw [sepList1]
      exact andThen_err (hp cl hcl r)
    rw [sequence, pmap_ok (opt_err (andThen_err h0))]
    rfl

theorem nextElem_err_close {p : P α} {w r : Str} {cl : Char} (hw : Ws w) (hcl : cl ∈ [')', '}']) :
    nextElem p (w ++ cl :: r) = .err := by
  refine andThen_err (sepComma_err hw (noWs_close hcl r) ?_)
  simp only [List.head?_cons, ne_eq, Option.some.injEq]
  exact (by decide : ∀ c ∈ [')', '}'], ¬ c = ',') cl hcl

theorem close_stop {cl : Char} (h : cl ∈ [')', '}']) :
    cl ∈ [')', ',', '}', '=', '!', '<', '>', ']'] :=
  (by decide : ∀ c ∈ [')', '}'], c ∈ [')', ',', '}', '=', '!', '<', '>', ']']) cl h

theorem SeqOk.list {p : P α} {es : List α} {s : Str} (hs : Starts s)
    (h : ∀ r, Stops r → ListOk p es s r) : SeqOk p es s := by
  intro w w' cl r hw hw' hcl
  refine ⟨s ++ (w' ++ cl :: r), w' ++ cl :: r, wsoc_append hw (hs.append _).noWs, ?_,
    wsoc_append hw'.1 (noWs_close hcl r)⟩
  have h1 := (h _ (stops_of hw' (close_stop hcl))).sepList (nextElem_err_close hw'.1 (r := r) hcl)
  have h2 : sepComma (w' ++ cl :: r) = .err := by
    refine sepComma_err hw'.1 (noWs_close hcl r) ?_
    simp only [List.head?_cons, ne_eq, Option.some.injEq]
    exact (by decide : ∀ c ∈ [')', '}'], ¬ c = ',') cl hcl
  have h3 : andThen (sepList1 sepComma p) (fun l => andThen (opt sepComma) fun _ => ret l)
      (s ++ (w' ++ cl :: r)) = .ok es (w' ++ cl :: r) := by
    rw [andThen_ok h1, andThen_ok (opt_err h2)]
    rfl
  rw [sequence, pmap_ok (opt_ok h3)]
  rfl

theorem SeqOk.trailing {p : P α} {es : List α} {s w1 : Str}
    (hp : ∀ cl ∈ [')', '}'], ∀ r, p (cl :: r) = .err) (hs : Starts s) (hw1 : Gap w1)
    (h : ∀ r, Stops r → ListOk p es s r) : SeqOk p es (s ++ (w1 ++ [','])) := by
  intro w w' cl r hw hw' hcl
  refine ⟨s ++ (w1 ++ ',' :: (w' ++ cl :: r)), cl :: r, ?_, ?_, wsoc_none (noWs_close hcl r)⟩
  · simp only [List.append_assoc, List.cons_append, List.nil_append]
    exact wsoc_append hw (hs.append _).noWs
  · have h2 : sepComma (w1 ++ ',' :: (w' ++ cl :: r)) = .ok () (cl :: r) :=
      sepComma_append hw1.1 hw'.1 (noWs_close hcl r)
    have h0 : nextElem p (w1 ++ ',' :: (w' ++ cl :: r)) = .err := by
      rw [nextElem, andThen_ok h2]
      exact hp cl hcl r
    have h1 := (h _ (stops_of hw1 (by decide))).sepList h0
    have h3 : andThen (sepList1 sepComma p) (fun l => andThen (opt sepComma) fun _ => ret l)
        (s ++ (w1 ++ ',' :: (w' ++ cl :: r))) = .ok es (cl :: r) := by
      rw [andThen_ok h1, andThen_ok (opt_ok h2)]
      rfl
    rw [sequence, pmap_ok (opt_ok h3)]
    rfl

theorem SeqOk.bracketed {p : P α} {es : List α} {s w w' r : Str} {op cl : Char} (h : SeqOk p es s)
    (hw : Ws w) (hw' : Gap w') (hcl : cl ∈ [')', '}']) :
    bracketed [op] [cl] (sequence p) (op :: (w ++ (s ++ (w' ++ cl :: r)))) = .ok es r := by
  obtain ⟨r1, r2, h1, h2, h3⟩ := h w w' cl r hw hw' hcl
  rw [Verif.Parse.bracketed, andThen_ok (tag1 op _), andThen_ok h1, andThen_ok h2, andThen_ok h3,
    andThen_ok (tag1 cl r)]
  rfl

theorem bracketed_ok {p : P α} {a : α} {s w w' r : Str} {op cl : Char} (hs : Starts s)
    (h : p (s ++ (w' ++ cl :: r)) = .ok a (w' ++ cl :: r)) (hw : Ws w) (hw' : Ws w')
    (hcl : cl ∈ [')', '}']) :
    bracketed [op] [cl] p (op :: (w ++ (s ++ (w' ++ cl :: r)))) = .ok a r := by
  rw [Verif.Parse.bracketed, andThen_ok (tag1 op _), andThen_ok (wsoc_append hw (hs.append _).noWs),
    andThen_ok h, andThen_ok (wsoc_append hw' (noWs_close hcl r)), andThen_ok (tag1 cl r)]
  rfl

/-! ## The claims of the induction -/

/-- Not something in parentheses followed by a closing parenthesis. -/
def NotParen (n : Nat) (t : Str) : Prop :=
  parenthesized (both n).1 t = .err ∧ bracketed ['('] [')'] (nonArith (both n).1) t = .err

/-- What reading a non-arithmetic expression does on `t`, a text of `e` followed by `r`. -/
def First (n : Nat) (e : Ex) (t r : Str) : Prop :=
  nonArith (both n).1 t = .err ∨ (nonArith (both n).1 t = .ok e r ∧ ¬ e.IsArith) ∨
    (e.IsArith ∧ ∃ (a : Ex) (r' : Str), nonArith (both n).1 t = .ok a r' ∧
      OpsOf ['*', '/', '+', '-'] r')

/-- The parser of the plain parts of a format string. -/
def chunk : Bool → P Str
  | false => takeWhile1 fun c => !(c == '"' || c == '{' || c == '}')
  | true => multilineChunk

/-- The end of a format string. -/
def closing : Bool → Str
  | false => ['"']
  | true => ['"', '"', '"']

/-- How each category is read. -/
def Claim : Cat → Str → Prop
  | .complex e, s => ∀ n, s.length ≤ n → ∀ r, After r →
      complex (both n).1 (s ++ r) = .ok e r ∧ NotParen n (s ++ r)
  | .simple e, s => ∀ n, s.length ≤ n → ∀ r, After r →
      nonArith (both n).1 (s ++ r) = .ok e r ∧ NotParen n (s ++ r)
  | .factor e, s => ∀ n, s.length ≤ n → ∀ r, After r →
      factor (both n).1 (both n).2 (s ++ r) = .ok e r ∧
      (nonArith (both n).1 (s ++ r) = .err ∨ nonArith (both n).1 (s ++ r) = .ok e r ∧ ¬ e.IsArith)
  | .product e, s => ∀ n, s.length ≤ n → ∀ r, After r →
      (∃ (a : Ex) (l : List (AOp × Ex)) (r0 : Str), chainFold a l = e ∧
        factor (both n).1 (both n).2 (s ++ r) = .ok a r0 ∧
        ManySteps (chainStep mulOp (factor (both n).1 (both n).2)) r0 l r) ∧ First n e (s ++ r) r
  | .sum e, s => ∀ n, s.length ≤ n → ∀ r, AfterAdd r →
      (∃ (a : Ex) (l : List (AOp × Ex)) (r0 : Str), chainFold a l = e ∧
        product (both n).1 (both n).2 (s ++ r) = .ok a r0 ∧
        ManySteps (chainStep addOp (product (both n).1 (both n).2)) r0 l r) ∧ First n e (s ++ r) r
  | .negated e, s => ∀ n, s.length ≤ n → ∀ r, Stops r →
      complex (both n).1 (s ++ r) = .ok e r ∧ NotParen n (s ++ r)
  | .expr e, s => ∀ n, s.length ≤ n → ∀ r, Stops r → (both (n + 1)).1 (s ++ r) = .ok e r ∧
      (¬ e.IsArith → arithmetic (both n).1 (both n).2 (s ++ r) = .err) ∧
      (e.IsArith → arithmetic (both n).1 (both n).2 (s ++ r) = .ok e r) ∧ First n e (s ++ r) r
  | .list es, s => ∀ n, s.length ≤ n → ∀ r, Stops r → ListOk (both (n + 1)).1 es s r
  | .seq es, s => ∀ n, s.length ≤ n → SeqOk (both (n + 1)).1 es s
  | .pairs kvs, s => ∀ n, s.length ≤ n → ∀ r, Stops r → ListOk (keyValue (both (n + 1)).1) kvs s r
  | .pairSeq kvs, s => ∀ n, s.length ≤ n → SeqOk (keyValue (both (n + 1)).1) kvs s
  | .elements m l, s => ∀ n, s.length ≤ n → ∀ r, r.head? ≠ some '"' →
      ManySteps (fElement (chunk m) (both (n + 1)).1) (s ++ (closing m ++ r)) l (closing m ++ r)

end Verif.Parse
