import Verif.ParseBasic
import Verif.ParseExpr

/-!
# Basic expressions are read as written
-/
namespace Verif.Parse

set_option linter.unusedSimpArgs false

theorem digits_err {r : Str} (hr : ∀ c ∈ r.head?, isDigit c = false) : digits r = .err :=
  takeWhile1_err hr

theorem head_append {p : Char → Prop} {a b : Str} (ha : ∀ c ∈ a.head?, p c)
    (hb : ∀ c ∈ b.head?, p c) : ∀ c ∈ (a ++ b).head?, p c := by
  cases a with
  | nil => simpa using hb
  | cons d a => simpa using ha

theorem head_cons {p : Char → Prop} {c : Char} {a : Str} (h : p c) : ∀ d ∈ (c :: a).head?, p d := by
  simpa using h

theorem head_ne {c : Char} {r : Str} {cs : List Char} (h : ∀ d ∈ r.head?, d ∈ cs) (hc : c ∉ cs) :
    r.head? ≠ some c := fun hd => hc (h c hd)

theorem noWs_cons {c : Char} {r : Str} (h1 : isSpace c = false) (h2 : c ≠ '%') (h3 : c ≠ '/') :
    NoWs (c :: r) := by
  intro d r' h
  simp only [List.cons.injEq] at h
  obtain ⟨rfl, rfl⟩ := h
  exact ⟨h1, h2, fun h => absurd h h3⟩

theorem noWs_nil : NoWs [] := by
  intro c r' h
  simp at h

/-- After white space, what follows an operand is at one of these characters. -/
theorem After.wsoc {r : Str} (h : After r) : ∃ r', wsoc r = .ok () r' ∧ NoWs r' ∧
    ∀ c ∈ r'.head?, c ∈ [')', ',', '}', '=', '!', '<', '>', ']', ':', '.', '*', '/', '+', '-'] := by
  rcases h.shape with rfl | ⟨w, c, r', rfl, hw, hc, _, _, h5⟩
  · exact ⟨[], wsoc_none noWs_nil, noWs_nil, by simp⟩
  · have hn : NoWs (c :: r') := by
      intro d r'' h
      simp only [List.cons.injEq] at h
      obtain ⟨rfl, rfl⟩ := h
      refine ⟨?_, ?_, h5⟩
      · exact (by decide : ∀ c ∈ [')', ',', '}', '=', '!', '<', '>', ']', ':', '.', '*', '/', '+', '-'],
          isSpace c = false) _ hc
      · exact (by decide : ∀ c ∈ [')', ',', '}', '=', '!', '<', '>', ']', ':', '.', '*', '/', '+', '-'],
          c ≠ '%') _ hc
    exact ⟨c :: r', wsoc_append hw.1 hn, hn, by simpa using hc⟩

/-! ## Texts that are not complex expressions -/

theorem bracketed_err {op : Char} {t cl : Str} {p : P α} {s : Str} (h : s.head? ≠ some op) :
    bracketed (op :: t) cl p s = .err := by
  rw [bracketed]
  exact andThen_err (tag_head h)

theorem aggregation_err {ex : P Ex} {s : Str} (h : s.head? ≠ some '#') :
    aggregation ex s = .err := by
  rw [aggregation]
  exact andThen_err (tag_head h)

theorem negation_err {ex : P Ex} {s : Str} (h : s.head? ≠ some '~') : negation ex s = .err := by
  rw [negation]
  exact andThen_err (tag_head h)

theorem tuple_err {ex : P Ex} {s : Str} (h : s.head? ≠ some '(') : tuple ex s = .err := by
  rw [tuple]
  exact pmap_err (bracketed_err h)

theorem tag_second {a b c : Char} {t r : Str} (h : r.head? ≠ some b) :
    tag (a :: b :: t) (c :: r) = .err := by
  by_cases hc : a = c
  · subst hc
    rw [tag_cons, tag_head h]
  · exact tag_ne _ _ hc

theorem formatString_err_head {ex : P Ex} {s : Str} (h : s.head? ≠ some 'f') :
    formatString ex s = .err := by
  rw [formatString, alt_err (andThen_err (tag_head h))]
  exact andThen_err (tag_head h)

theorem formatString_err_second {ex : P Ex} {c : Char} {r : Str} (h : r.head? ≠ some '"') :
    formatString ex (c :: r) = .err := by
  rw [formatString, alt_err (andThen_err (tag_second h))]
  exact andThen_err (tag_second h)

theorem operation_err {ex : P Ex} {s : Str} (h : keyword opTable s = .err ∨
    ∃ (k r : Str), keyword opTable s = .ok k r ∧ r.head? ≠ some '(') : operation ex s = .err := by
  rw [operation]
  rcases h with h | ⟨k, r, h, hr⟩
  · exact andThen_err h
  · rw [andThen_ok h]
    exact pmap_err (bracketed_err hr)

theorem atom_err {ex : P Ex} {s : Str} (h : structureTag s = .err ∨
    ∃ (t : Tag) (r : Str), structureTag s = .ok t r ∧ r.head? ≠ some '(') : atom ex s = .err := by
  rw [atom]
  rcases h with h | ⟨k, r, h, hr⟩
  · exact andThen_err h
  · rw [andThen_ok h]
    exact pmap_err (bracketed_err hr)

theorem mapP_err_none {ex : P Ex} {s : Str} (h : structureTag s = .err) (hs : s.head? ≠ some '{') :
    mapP ex s = .err := by
  rw [mapP, andThen_ok (opt_err (andThen_err h))]
  exact pmap_err (bracketed_err hs)

theorem mapP_err_some {ex : P Ex} {s r r' : Str} {t : Tag} (h : structureTag s = .ok t r)
    (hw : wsoc r = .ok () r') (hs : r'.head? ≠ some '{') : mapP ex s = .err := by
  have h1 : andThen structureTag (fun t => andThen (opt wsoc) fun _ => ret t) s = .ok t r' := by
    rw [andThen_ok h, andThen_ok (opt_ok hw)]
    rfl
  rw [mapP, andThen_ok (opt_ok h1)]
  exact pmap_err (bracketed_err hs)

/-- The characters complex expressions can start with, apart from letters. -/
def complexChars : List Char := ['#', '{', '~', '(', ':', '<']

theorem complex_err_head {ex : P Ex} {s : Str}
    (h : ∀ c ∈ s.head?, isAlpha c = false ∧ c ∉ complexChars) : complex ex s = .err := by
  have hne : ∀ c ∈ complexChars, s.head? ≠ some c := fun c hc he => (h c he).2 hc
  have hst : structureTag s = .err := structureTag_err fun c hc => by
    refine ⟨(h c hc).1, ?_, ?_⟩
    · rintro rfl
      exact (h _ hc).2 (by decide)
    · rintro rfl
      exact (h _ hc).2 (by decide)
  rw [complex, alt_err (aggregation_err (hne _ (by decide))),
    alt_err (operation_err (Or.inl (keyword_err opTable_letters fun c hc => (h c hc).1))),
    alt_err (atom_err (Or.inl hst)), alt_err (mapP_err_none hst (hne _ (by decide))),
    alt_err (negation_err (hne _ (by decide))), alt_err (tuple_err (hne _ (by decide)))]
  apply formatString_err_head
  intro hf
  have := (h _ hf).1
  exact absurd this (by decide)

theorem nameChars {n : Str} (h : IsName n) : ∀ c ∈ n, nameChar c = true := by
  obtain ⟨c, r, rfl, hc, hr⟩ := h.cons
  intro d hd
  rcases List.mem_cons.mp hd with rfl | hd
  · exact nameChar_of_alpha hc
  · exact hr d (by simp [hd])

theorem not_nameChar_paren {c : Char} (h : nameChar c = true) : c ≠ '(' := by
  rintro rfl
  exact absurd h (by decide)

/-- A name on its own is not a call of a builtin function. -/
theorem keyword_tag {t : Tag} {s r : Str} (h : TagText t s) (hn : ∀ c ∈ r.head?, nameChar c = false)
    (hp : r.head? ≠ some '(' ∨ t.NotBuiltin) : keyword opTable (s ++ r) = .err ∨
    ∃ (k r' : Str), keyword opTable (s ++ r) = .ok k r' ∧ r'.head? ≠ some '(' := by
  cases h with
  | plain hname =>
    rcases keyword_name opTable_letters (nameChars hname) hn with h | ⟨k, c, m, h, hc⟩ | ⟨k, hk, hs, h⟩
    · exact Or.inl h
    · refine Or.inr ⟨k, c :: m, h, ?_⟩
      simpa using not_nameChar_paren hc
    · rcases hp with hp | hp
      · exact Or.inr ⟨k, r, h, hp⟩
      · exact absurd hs (hp _ rfl k hk)
  | @prefixed p n hp' hname =>
    rcases hp' with rfl | hp'
    · left
      apply keyword_err opTable_letters
      simp
      decide
    · have hcol : ∀ c ∈ (':' :: (n ++ r)).head?, nameChar c = false := by simp; decide
      rw [List.append_assoc]
      rcases keyword_name opTable_letters (nameChars hp') hcol with h | ⟨k, c, m, h, hc⟩ | ⟨k, hk, hs, h⟩
      · exact Or.inl h
      · refine Or.inr ⟨k, c :: m, h, ?_⟩
        simpa using not_nameChar_paren hc
      · exact Or.inr ⟨k, _, h, by simp⟩
  | iri =>
    left
    apply keyword_err opTable_letters
    simp
    decide

theorem TagText.head_ne {t : Tag} {s r : Str} {c : Char} (h : TagText t s) (h1 : isAlpha c = false)
    (h2 : c ≠ ':') (h3 : c ≠ '<') : (s ++ r).head? ≠ some c := by
  obtain ⟨d, s', rfl, hd⟩ := h.head
  simp only [List.cons_append, List.head?_cons, ne_eq, Option.some.injEq]
  rintro rfl
  rcases hd with hd | hd | hd
  · rw [hd] at h1
    exact Bool.noConfusion h1
  · exact h2 hd
  · exact h3 hd

theorem formatString_name {ex : P Ex} {n r : Str} (h : IsName n) (hq : r.head? ≠ some '"') :
    formatString ex (n ++ r) = .err := by
  have hn := nameChars h
  obtain ⟨c, n, rfl, _⟩ := h
  apply formatString_err_second
  cases n with
  | nil => simpa using hq
  | cons e n =>
    have := hn e (by simp)
    simp only [List.append_eq, List.cons_append, List.head?_cons, ne_eq, Option.some.injEq]
    rintro rfl
    exact absurd this (by decide)

/-- A name, on its own or as the name of an atom or map, is not a format string. -/
theorem formatString_tag {ex : P Ex} {t : Tag} {s r : Str} (h : TagText t s)
    (hq : r.head? ≠ some '"') : formatString ex (s ++ r) = .err := by
  cases h with
  | plain hn => exact formatString_name hn hq
  | @prefixed p n hp hn =>
    rcases hp with rfl | hp
    · exact formatString_err_head (by simp)
    · rw [List.append_assoc]
      exact formatString_name hp (by simp)
  | iri => exact formatString_err_head (by simp)

theorem complex_err_tag {ex : P Ex} {t : Tag} {s r : Str} (h : TagText t s) (hr : After r) :
    complex ex (s ++ r) = .err := by
  have hst := structureTag_append h hr.tagFollow
  obtain ⟨r', hw, _, hc⟩ := hr.wsoc
  have hp : r.head? ≠ some '(' := Verif.Parse.head_ne hr.head (by decide)
  rw [complex, alt_err (aggregation_err (h.head_ne (by decide) (by decide) (by decide))),
    alt_err (operation_err (keyword_tag h hr.nameChar (Or.inl hp))),
    alt_err (atom_err (Or.inr ⟨t, r, hst, hp⟩)),
    alt_err (mapP_err_some hst hw (Verif.Parse.head_ne hc (by decide))),
    alt_err (negation_err (h.head_ne (by decide) (by decide) (by decide))),
    alt_err (tuple_err (h.head_ne (by decide) (by decide) (by decide)))]
  exact formatString_tag h (Verif.Parse.head_ne hr.head (by decide))

/-! ## Basic expressions -/

theorem blank_err {s : Str} (h : s.head? ≠ some '_') : blank s = .err := by
  rw [blank]
  exact andThen_err (tag_head h)

theorem boolean_err_head {s : Str} (h : s.head? ≠ some 't') (h' : s.head? ≠ some 'f') :
    boolean s = .err := by
  rw [boolean, alt_err (pmap_err (tag_head h))]
  exact pmap_err (tag_head h')

theorem prefix_alpha {x a r : Str} (hx : ∀ c ∈ x, isAlpha c = true)
    (hr : ∀ c ∈ r.head?, isAlpha c = false) (h : x <+: a ++ r) : x <+: a := by
  cases r with
  | nil => simpa using h
  | cons c r =>
    refine prefix_extend ?_ h
    intro hm
    have := hr c (by simp)
    rw [hx c hm] at this
    exact Bool.noConfusion this

theorem nameChar_alpha {r : Str} (h : ∀ c ∈ r.head?, nameChar c = false) :
    ∀ c ∈ r.head?, isAlpha c = false := by
  intro c hc
  cases h' : isAlpha c with
  | false => rfl
  | true =>
    have := h c hc
    rw [nameChar_of_alpha h'] at this
    exact Bool.noConfusion this

theorem tag_err {t s : Str} (h : ¬ t <+: s) : tag t s = .err := by
  rw [tag, isPrefixOf_false h]
  rfl

/-- A basic expression that starts with none of the characters of names. -/
theorem basic_plain {s : Str} (h1 : s.head? ≠ some '_')
    (h2 : ∀ c ∈ s.head?, isAlpha c = false ∧ c ≠ ':' ∧ c ≠ '<') :
    basic s = alt encodedNumber (alt number (alt rdfLiteral (alt stringLiteral variableP))) s := by
  rw [basic, alt_err (blank_err h1), alt_err (boolean_err_head _ _), alt_err]
  · rw [constant]
    exact pmap_err (structureTag_err h2)
  · exact fun h => absurd (h2 _ h).1 (by decide)
  · exact fun h => absurd (h2 _ h).1 (by decide)

theorem encodedNumber_err {s : Str} (h : s.head? ≠ some '0') : encodedNumber s = .err := by
  rw [encodedNumber, alt_err (andThen_err (tag_head h)), alt_err (andThen_err (tag_head h))]
  exact andThen_err (tag_head h)

theorem encodedNumber_err_second {c : Char} {r : Str} (h1 : r.head? ≠ some 'b')
    (h2 : r.head? ≠ some 'o') (h3 : r.head? ≠ some 'x') : encodedNumber (c :: r) = .err := by
  rw [encodedNumber, alt_err (andThen_err (tag_second h1)), alt_err (andThen_err (tag_second h2))]
  exact andThen_err (tag_second h3)

theorem sign_err {s : Str} (h1 : s.head? ≠ some '+') (h2 : s.head? ≠ some '-') : sign s = .err := by
  rw [sign, alt_err (pmap_err (tag_head h1))]
  exact pmap_err (tag_head h2)

theorem number_err {s : Str} (h : ∀ c ∈ s.head?, isDigit c = false ∧ c ≠ '+' ∧ c ≠ '-') :
    number s = .err := by
  have hs : sign s = .err := sign_err (fun hc => (h _ hc).2.1 rfl) (fun hc => (h _ hc).2.2 rfl)
  rw [number, andThen_ok (opt_err hs)]
  exact andThen_err (digits_err fun c hc => (h c hc).1)

theorem sign_append {m : Bool} {sg r : Str} (h : SignText m sg) (h1 : r.head? ≠ some '+')
    (h2 : r.head? ≠ some '-') : ∃ o, opt sign (sg ++ r) = .ok o r ∧ o.getD false = m := by
  cases m with
  | true =>
    have : sg = ['-'] := by simpa [SignText] using h
    subst this
    refine ⟨some true, opt_ok ?_, rfl⟩
    rw [sign, alt_err (pmap_err (tag_head (by simp)))]
    exact pmap_ok (tag1 '-' r)
  | false =>
    have : sg = [] ∨ sg = ['+'] := by simpa [SignText] using h
    rcases this with rfl | rfl
    · exact ⟨none, opt_err (sign_err h1 h2), rfl⟩
    · refine ⟨some false, opt_ok ?_, rfl⟩
      rw [sign]
      exact alt_ok (pmap_ok (tag1 '+' r))

theorem IsDigits.head {n : Str} (h : IsDigits n) : ∃ (c : Char) (n' : Str), n = c :: n' ∧
    isDigit c = true ∧ ∀ d ∈ n', isDigit d = true := by
  cases n with
  | nil => exact absurd rfl h.1
  | cons c n =>
    refine ⟨c, n, rfl, ?_, ?_⟩
    · rw [isDigit_eq]
      exact h.2 c (by simp)
    · intro d hd
      rw [isDigit_eq]
      exact h.2 d (by simp [hd])

theorem digit_ne {c d : Char} (h : isDigit c = true) (hd : isDigit d = false) : c ≠ d := by
  rintro rfl
  rw [h] at hd
  exact Bool.noConfusion hd

theorem IsDigits.head_ne {n r : Str} {d : Char} (h : IsDigits n) (hd : isDigit d = false) :
    (n ++ r).head? ≠ some d := by
  obtain ⟨c, n', rfl, hc, _⟩ := h.head
  simpa using digit_ne hc hd

/-- The fraction of a number. -/
theorem fractional_append {f : Option Str} {fr r : Str} (h : FracText f fr)
    (hd : ∀ c ∈ r.head?, isDigit c = false)
    (hdot : ∀ r', r = '.' :: r' → ∀ c ∈ r'.head?, isDigit c = false) :
    opt fractional (fr ++ r) = .ok f r := by
  cases f with
  | none =>
    have : fr = [] := h
    subst this
    apply opt_err
    rw [fractional, List.nil_append]
    by_cases hc : r.head? = some '.'
    · cases r with
      | nil => simp at hc
      | cons c r =>
        simp only [List.head?_cons, Option.some.injEq] at hc
        subst hc
        rw [andThen_ok (tag1 '.' r)]
        exact digits_err (hdot r rfl)
    · exact andThen_err (tag_head hc)
  | some d =>
    obtain ⟨hd', rfl⟩ := h
    apply opt_ok
    rw [fractional, List.cons_append, andThen_ok (tag1 '.' (d ++ r))]
    exact digits_append hd' hd

/-- The exponent of a number. -/
theorem exponent_append {e : Option (Bool × Str)} {es r : Str} (h : ExpText e es)
    (hd : ∀ c ∈ r.head?, isDigit c = false ∧ c ≠ 'e' ∧ c ≠ 'E') :
    opt exponent (es ++ r) = .ok e r := by
  match e, h with
  | none, h =>
    have : es = [] := h
    subst this
    apply opt_err
    rw [exponent, List.nil_append]
    apply andThen_err
    rw [alt_err (tag_head fun hc => (hd _ hc).2.1 rfl)]
    exact tag_head fun hc => (hd _ hc).2.2 rfl
  | some (m, d), h =>
    obtain ⟨hd', c, sg, hc, hsg, rfl⟩ := h
    obtain ⟨o, ho, hom⟩ := sign_append (r := d ++ r) hsg (hd'.head_ne (by decide))
      (hd'.head_ne (by decide))
    apply opt_ok
    have htag : alt (tag ['e']) (tag ['E']) (c :: sg ++ d ++ r) = .ok () (sg ++ (d ++ r)) := by
      rcases hc with rfl | rfl
      · rw [List.append_assoc]
        exact alt_ok (tag1 'e' _)
      · rw [alt_err (tag_head (by simp)), List.append_assoc]
        exact tag1 'E' _
    rw [exponent, andThen_ok htag, andThen_ok ho,
      pmap_ok (digits_append hd' fun c hc => (hd c hc).1), hom]

theorem typeMarker_append {m : Option Bool} {mk r : Str} (h : MarkerText m mk)
    (h1 : r.head? ≠ some 'f') (h2 : r.head? ≠ some 'd') : opt typeMarker (mk ++ r) = .ok m r := by
  match m, h with
  | none, h =>
    have : mk = [] := h
    subst this
    apply opt_err
    rw [typeMarker, List.nil_append, alt_err (pmap_err (tag_head h1))]
    exact pmap_err (tag_head h2)
  | some false, h =>
    have : mk = ['f'] := h
    subst this
    exact opt_ok (alt_ok (pmap_ok (tag1 'f' r)))
  | some true, h =>
    have : mk = ['d'] := h
    subst this
    apply opt_ok
    rw [typeMarker, alt_err (pmap_err (tag_head (by simp)))]
    exact pmap_ok (tag1 'd' r)

/-- Where the parts of a number end. -/
theorem fracText_head {f : Option Str} {fr : Str} (h : FracText f fr) : ∀ c ∈ fr.head?, c = '.' := by
  cases f with
  | none =>
    have : fr = [] := h
    subst this
    simp
  | some d =>
    obtain ⟨_, rfl⟩ := h
    simp

theorem expText_head {e : Option (Bool × Str)} {es : Str} (h : ExpText e es) :
    ∀ c ∈ es.head?, c = 'e' ∨ c = 'E' := by
  match e, h with
  | none, h =>
    have : es = [] := h
    subst this
    simp
  | some (m, d), h =>
    obtain ⟨_, c, sg, hc, _, rfl⟩ := h
    simpa using hc

theorem markerText_head {m : Option Bool} {mk : Str} (h : MarkerText m mk) :
    ∀ c ∈ mk.head?, c = 'f' ∨ c = 'd' := by
  match m, h with
  | none, h =>
    have : mk = [] := h
    subst this
    simp
  | some false, h =>
    have : mk = ['f'] := h
    subst this
    simp
  | some true, h =>
    have : mk = ['d'] := h
    subst this
    simp

/-- The characters that can follow the digits of a number. -/
def numberChars : List Char := ['.', 'e', 'E', 'f', 'd'] ++ afterChars

theorem number_tail_head {n : Num} {fr es mk r : Str} (h1 : FracText n.frac fr) (h2 : ExpText n.exp es)
    (h3 : MarkerText n.marker mk) (hr : After r) :
    ∀ c ∈ (fr ++ (es ++ (mk ++ r))).head?, c ∈ numberChars := by
  apply head_append
  · intro c hc
    rw [fracText_head h1 c hc]
    decide
  apply head_append
  · intro c hc
    rcases expText_head h2 c hc with rfl | rfl <;> decide
  apply head_append
  · intro c hc
    rcases markerText_head h3 c hc with rfl | rfl <;> decide
  · intro c hc
    exact (by decide : ∀ c ∈ afterChars, c ∈ numberChars) c (hr.head c hc)

theorem number_append {n : Num} {sg fr es mk r : Str} (h0 : SignText n.neg sg) (hi : IsDigits n.int)
    (h1 : FracText n.frac fr) (h2 : ExpText n.exp es) (h3 : MarkerText n.marker mk) (hr : After r) :
    number (sg ++ (n.int ++ (fr ++ (es ++ (mk ++ r))))) = .ok (.number n) r := by
  obtain ⟨o, ho, hom⟩ := sign_append (r := n.int ++ (fr ++ (es ++ (mk ++ r)))) h0
    (hi.head_ne (by decide)) (hi.head_ne (by decide))
  have hmk : ∀ c ∈ (mk ++ r).head?, c ∈ ['f', 'd'] ++ afterChars := by
    apply head_append
    · intro c hc
      rcases markerText_head h3 c hc with rfl | rfl <;> decide
    · intro c hc
      exact (by decide : ∀ c ∈ afterChars, c ∈ ['f', 'd'] ++ afterChars) c (hr.head c hc)
  have hes : ∀ c ∈ (es ++ (mk ++ r)).head?, c ∈ ['e', 'E', 'f', 'd'] ++ afterChars := by
    apply head_append
    · intro c hc
      rcases expText_head h2 c hc with rfl | rfl <;> decide
    · intro c hc
      exact (by decide : ∀ c ∈ ['f', 'd'] ++ afterChars, c ∈ ['e', 'E', 'f', 'd'] ++ afterChars) c
        (hmk c hc)
  rw [number, andThen_ok ho, andThen_ok (digits_append hi ?_), andThen_ok (fractional_append h1 ?_ ?_),
    andThen_ok (exponent_append h2 ?_), andThen_ok (typeMarker_append h3 ?_ ?_), hom]
  · rfl
  · exact head_ne hr.head (by decide)
  · exact head_ne hr.head (by decide)
  · intro c hc
    exact (by decide : ∀ c ∈ ['f', 'd'] ++ afterChars, isDigit c = false ∧ c ≠ 'e' ∧ c ≠ 'E') c (hmk c hc)
  · intro c hc
    exact (by decide : ∀ c ∈ ['e', 'E', 'f', 'd'] ++ afterChars, isDigit c = false) c (hes c hc)
  · intro r' heq
    cases es with
    | nil =>
      cases mk with
      | nil =>
        rw [List.nil_append, List.nil_append] at heq
        subst heq
        exact hr.dot
      | cons c mk =>
        have := markerText_head h3 c (by simp)
        simp only [List.nil_append, List.cons_append, List.cons.injEq] at heq
        rw [heq.1] at this
        simp at this
    | cons c es =>
      have := expText_head h2 c (by simp)
      simp only [List.cons_append, List.cons.injEq] at heq
      rw [heq.1] at this
      simp at this
  · intro c hc
    exact (by decide : ∀ c ∈ numberChars, isDigit c = false) c (number_tail_head h1 h2 h3 hr c hc)

/-- A number is not read as a number with a base. -/
theorem number_not_encoded {n : Num} {sg fr es mk r : Str} (h0 : SignText n.neg sg)
    (hi : IsDigits n.int) (h1 : FracText n.frac fr) (h2 : ExpText n.exp es)
    (h3 : MarkerText n.marker mk) (hr : After r) :
    encodedNumber (sg ++ (n.int ++ (fr ++ (es ++ (mk ++ r))))) = .err := by
  have hsg : sg = [] ∨ sg = ['+'] ∨ sg = ['-'] := by
    cases hn : n.neg with
    | true =>
      rw [hn] at h0
      right; right
      simpa [SignText] using h0
    | false =>
      rw [hn] at h0
      have : sg = [] ∨ sg = ['+'] := by simpa [SignText] using h0
      rcases this with h | h <;> simp [h]
  rcases hsg with rfl | rfl | rfl
  · obtain ⟨c, i, hi', hc, hrest⟩ := hi.head
    rw [hi']
    have hh : ∀ d ∈ (i ++ (fr ++ (es ++ (mk ++ r)))).head?, isDigit d = true ∨ d ∈ numberChars := by
      apply head_append
      · intro d hd
        cases i with
        | nil => simp at hd
        | cons e i =>
          simp only [List.head?_cons, Option.mem_def, Option.some.injEq] at hd
          subst hd
          exact Or.inl (hrest _ (by simp))
      · intro d hd
        exact Or.inr (number_tail_head h1 h2 h3 hr d hd)
    have hne : ∀ d, isDigit d = false → d ∉ numberChars →
        (i ++ (fr ++ (es ++ (mk ++ r)))).head? ≠ some d := by
      intro d hd1 hd2 he
      rcases hh d he with h | h
      · rw [h] at hd1
        exact Bool.noConfusion hd1
      · exact hd2 h
    exact encodedNumber_err_second (hne _ (by decide) (by decide)) (hne _ (by decide) (by decide))
      (hne _ (by decide) (by decide))
  · exact encodedNumber_err (by simp)
  · exact encodedNumber_err (by simp)

theorem encDigit_iff (e : Enc) (c : Char) : EncDigit e c → (match e with
    | .bin => c == '0' || c == '1'
    | .oct => isOct c
    | .hex => isHex c) = true := by
  cases e with
  | bin => exact (by decide : ∀ c ∈ "01".toList, (c == '0' || c == '1') = true) c
  | oct => exact (by decide : ∀ c ∈ "01234567".toList, isOct c = true) c
  | hex => exact (by decide : ∀ c ∈ "0123456789abcdefABCDEF".toList, isHex c = true) c

theorem encoded_append {e : Enc} {ds r : Str} (h1 : ds ≠ []) (h2 : ∀ d ∈ ds, EncDigit e d)
    (hr : After r) : encodedNumber ('0' :: e.mark :: (ds ++ r)) = .ok (.encoded e ds) r := by
  cases e with
  | bin =>
    apply alt_ok
    have ht : tag ['0', 'b'] ('0' :: 'b' :: (ds ++ r)) = .ok () (ds ++ r) :=
      tag_append ['0', 'b'] (ds ++ r)
    rw [show Enc.bin.mark = 'b' from rfl, andThen_ok ht]
    refine pmap_ok (takeWhile1_append h1 (fun c hc => encDigit_iff .bin c (h2 c hc)) ?_)
    intro c hc
    exact (by decide : ∀ c ∈ afterChars, (c == '0' || c == '1') = false) c (hr.head c hc)
  | oct =>
    rw [encodedNumber, alt_err]
    · apply alt_ok
      have ht : tag ['0', 'o'] ('0' :: 'o' :: (ds ++ r)) = .ok () (ds ++ r) :=
        tag_append ['0', 'o'] (ds ++ r)
      rw [show Enc.oct.mark = 'o' from rfl, andThen_ok ht]
      refine pmap_ok (takeWhile1_append h1 (fun c hc => encDigit_iff .oct c (h2 c hc)) ?_)
      intro c hc
      exact (by decide : ∀ c ∈ afterChars, isOct c = false) c (hr.head c hc)
    · exact andThen_err (tag_second (by simp [Enc.mark]))
  | hex =>
    rw [encodedNumber, alt_err, alt_err]
    · have ht : tag ['0', 'x'] ('0' :: 'x' :: (ds ++ r)) = .ok () (ds ++ r) :=
        tag_append ['0', 'x'] (ds ++ r)
      rw [show Enc.hex.mark = 'x' from rfl, andThen_ok ht]
      refine pmap_ok (takeWhile1_append h1 (fun c hc => encDigit_iff .hex c (h2 c hc)) ?_)
      intro c hc
      exact (by decide : ∀ c ∈ afterChars, isHex c = false) c (hr.head c hc)
    · exact andThen_err (tag_second (by simp [Enc.mark]))
    · exact andThen_err (tag_second (by simp [Enc.mark]))

/-! ## Strings -/

theorem stringText_append {c r : Str} (h1 : c ≠ []) (h2 : '"' ∉ c) :
    stringText (c ++ '"' :: r) = .ok c ('"' :: r) := by
  refine takeWhile1_append h1 ?_ (by simp)
  intro d hd
  simp only [bne_iff_ne, ne_eq]
  rintro rfl
  exact h2 hd

theorem stringText_err (r : Str) : stringText ('"' :: r) = .err := takeWhile1_err (by simp)

theorem langText_head {l : Option Str} {ls r : Str} (h : LangText l ls) (hr : After r) :
    ∀ c ∈ (ls ++ r).head?, c ∈ '@' :: afterChars := by
  apply head_append
  · cases l with
    | none =>
      have : ls = [] := h
      subst this
      simp
    | some n =>
      obtain ⟨_, rfl⟩ := h
      simp
  · intro c hc
    exact List.mem_cons_of_mem _ (hr.head c hc)

theorem lang_append {l : Option Str} {ls r : Str} (h : LangText l ls) (hr : After r) :
    opt (andThen (tag ['@']) fun _ => name) (ls ++ r) = .ok l r := by
  cases l with
  | none =>
    have : ls = [] := h
    subst this
    exact opt_err (andThen_err (tag_head (head_ne hr.head (by decide))))
  | some n =>
    obtain ⟨hn, rfl⟩ := h
    apply opt_ok
    rw [List.cons_append, andThen_ok (tag1 '@' _)]
    exact name_append hn hr.nameChar

theorem rdfLiteral_append {c ts r : Str} {t : Tag} (h1 : c ≠ []) (h2 : '"' ∉ c) (ht : TagText t ts)
    (hr : After r) : rdfLiteral ('"' :: (c ++ '"' :: '^' :: '^' :: (ts ++ r))) = .ok (.rdf c t) r := by
  have hh : tag ['^', '^'] ('^' :: '^' :: (ts ++ r)) = .ok () (ts ++ r) := tag_append ['^', '^'] _
  rw [rdfLiteral, andThen_ok (tag1 '"' _), andThen_ok (stringText_append h1 h2), andThen_ok (tag1 '"' _),
    andThen_ok hh]
  exact pmap_ok (structureTag_append ht hr.tagFollow)

theorem rdfLiteral_err_string {c r : Str} (h2 : '"' ∉ c) (hr : r.head? ≠ some '^') :
    rdfLiteral ('"' :: (c ++ '"' :: r)) = .err := by
  rw [rdfLiteral, andThen_ok (tag1 '"' _)]
  cases c with
  | nil => exact andThen_err (stringText_err r)
  | cons d c =>
    rw [andThen_ok (stringText_append (by simp) h2), andThen_ok (tag1 '"' _)]
    exact andThen_err (tag_head hr)

theorem rdfLiteral_err_head {r : Str} (hr : r.head? ≠ some '"') : rdfLiteral r = .err := by
  rw [rdfLiteral]
  exact andThen_err (tag_head hr)

theorem stringLiteral_err_head {r : Str} (hr : r.head? ≠ some '"') : stringLiteral r = .err := by
  rw [stringLiteral, quoted]
  apply andThen_err
  rw [alt_err (andThen_err (tag_head hr))]
  exact andThen_err (tag_head hr)

theorem quoted_append {c r : Str} (h2 : '"' ∉ c) (hr : r.head? ≠ some '"') :
    quoted ('"' :: (c ++ '"' :: r)) = .ok c r := by
  rw [quoted, alt_err]
  · rw [andThen_ok (tag1 '"' _)]
    have h : alt stringText (ret []) (c ++ '"' :: r) = .ok c ('"' :: r) := by
      cases c with
      | nil =>
        rw [List.nil_append, alt_err (stringText_err r)]
        rfl
      | cons d c => exact alt_ok (stringText_append (by simp) h2)
    rw [andThen_ok h, andThen_ok (tag1 '"' _)]
    rfl
  · apply andThen_err
    cases c with
    | nil =>
      rw [List.nil_append, tag_cons, tag_cons, tag_head hr]
    | cons d c =>
      apply tag_second
      simp only [List.cons_append, List.head?_cons, ne_eq, Option.some.injEq]
      rintro rfl
      simp at h2

theorem quoted_multiline {c r : Str} (h : Absent ['"', '"', '"'] (c ++ ['"', '"'])) :
    quoted ('"' :: '"' :: '"' :: (c ++ '"' :: '"' :: '"' :: r)) = .ok c r := by
  rw [quoted]
  apply alt_ok
  have h1 : tag ['"', '"', '"'] ('"' :: '"' :: '"' :: (c ++ '"' :: '"' :: '"' :: r)) =
      .ok () (c ++ '"' :: '"' :: '"' :: r) := tag_append ['"', '"', '"'] _
  have h2 : tag ['"', '"', '"'] ('"' :: '"' :: '"' :: r) = .ok () r := tag_append ['"', '"', '"'] _
  have h3 : takeUntil ['"', '"', '"'] (c ++ '"' :: '"' :: '"' :: r) = .ok c ('"' :: '"' :: '"' :: r) :=
    takeUntil_append (t := ['"', '"']) (m := '"') r h
  rw [andThen_ok h1, andThen_ok (alt_ok h3), andThen_ok h2]
  rfl

/-! ## All basic expressions -/

theorem variable_append {k : VarKind} {n r : Str} (hn : IsName n) (hr : After r) :
    variableP (k.mark :: (n ++ r)) = .ok (.variable k n) r := by
  have hcut : cut name (n ++ r) = .ok n r := by
    rw [cut, name_append hn hr.nameChar]
  rw [variableP]
  apply alt_ok
  rw [andThen_ok (a := k) (r := n ++ r)]
  · exact pmap_ok hcut
  · cases k with
    | universal => exact alt_ok (pmap_ok (tag1 '?' _))
    | existential =>
      rw [alt_err (pmap_err (tag_head (by simp [VarKind.mark])))]
      exact alt_ok (pmap_ok (tag1 '!' _))
    | «global» =>
      rw [alt_err (pmap_err (tag_head (by simp [VarKind.mark]))),
        alt_err (pmap_err (tag_head (by simp [VarKind.mark])))]
      exact pmap_ok (tag1 '$' _)

theorem anonymous_append (r : Str) : variableP ('_' :: r) = .ok .anonymous r := by
  rw [variableP, alt_err]
  · exact pmap_ok (tag1 '_' r)
  · apply andThen_err
    rw [alt_err (pmap_err (tag_head (by simp))), alt_err (pmap_err (tag_head (by simp)))]
    exact pmap_err (tag_head (by simp))

theorem signText_head {m : Bool} {sg : Str} (h : SignText m sg) : ∀ c ∈ sg.head?, c = '+' ∨ c = '-' := by
  cases m with
  | true =>
    have : sg = ['-'] := by simpa [SignText] using h
    subst this
    simp
  | false =>
    have : sg = [] ∨ sg = ['+'] := by simpa [SignText] using h
    rcases this with rfl | rfl <;> simp

theorem number_head {m : Bool} {sg i r : Str} (h0 : SignText m sg) (hi : IsDigits i) :
    ∀ c ∈ (sg ++ (i ++ r)).head?, isDigit c = true ∨ c = '+' ∨ c = '-' := by
  apply head_append
  · exact fun c hc => Or.inr (signText_head h0 c hc)
  · obtain ⟨c, i', rfl, hc, _⟩ := hi.head
    exact head_cons (Or.inl hc)

theorem digit_not_alpha {c : Char} (h : isDigit c = true) : isAlpha c = false := by
  cases h' : isAlpha c with
  | false => rfl
  | true =>
    exfalso
    simp only [isDigit, isAlpha, Bool.and_eq_true, Bool.or_eq_true, decide_eq_true_eq] at h h'
    simp only [Char.le_def, UInt32.le_iff_toNat_le] at h h'
    simp only [show ('0' : Char).val.toNat = 48 from rfl, show ('9' : Char).val.toNat = 57 from rfl,
      show ('a' : Char).val.toNat = 97 from rfl, show ('z' : Char).val.toNat = 122 from rfl,
      show ('A' : Char).val.toNat = 65 from rfl, show ('Z' : Char).val.toNat = 90 from rfl] at h h'
    omega

/-- Every basic expression is read as written. -/
theorem basic_append {e : Ex} {s r : Str} (h : BasicText e s) (hr : After r) :
    basic (s ++ r) = .ok e r := by
  cases h with
  | @blank n hn =>
    rw [basic]
    apply alt_ok
    have ht : tag ['_', ':'] ('_' :: ':' :: (n ++ r)) = .ok () (n ++ r) := tag_append ['_', ':'] _
    rw [blank, List.cons_append, List.cons_append, andThen_ok ht]
    apply pmap_ok
    rcases hn with hn | hn
    · exact alt_ok (name_append hn hr.nameChar)
    · rw [alt_err]
      · refine digits_append hn ?_
        intro c hc
        exact (by decide : ∀ c ∈ afterChars, isDigit c = false) c (hr.head c hc)
      · obtain ⟨c, n', rfl, hc, _⟩ := hn.head
        exact name_err (head_cons (digit_not_alpha hc))
  | true =>
    rw [basic, alt_err (blank_err (by simp))]
    exact alt_ok (alt_ok (pmap_ok (tag_append ['t', 'r', 'u', 'e'] r)))
  | false =>
    rw [basic, alt_err (blank_err (by simp))]
    apply alt_ok
    rw [boolean, alt_err (pmap_err (tag_head (by simp)))]
    exact pmap_ok (tag_append ['f', 'a', 'l', 's', 'e'] r)
  | constant ht h1 h2 =>
    have ha := nameChar_alpha hr.nameChar
    rw [basic, alt_err (blank_err (ht.head_ne (by decide) (by decide) (by decide))), alt_err, alt_ok]
    · exact pmap_ok (structureTag_append ht hr.tagFollow)
    · rw [boolean, alt_err (pmap_err (tag_err _))]
      · refine pmap_err (tag_err ?_)
        exact fun hp => h2 (prefix_alpha (by decide) ha hp)
      · exact fun hp => h1 (prefix_alpha (by decide) ha hp)
  | @encoded e ds h1 h2 =>
    rw [basic_plain (by simp) (by simp; decide)]
    exact alt_ok (encoded_append h1 h2 hr)
  | @number n sg fr es mk h0 hi h1 h2 h3 =>
    have hh := number_head (r := fr ++ (es ++ (mk ++ r))) h0 hi
    simp only [List.append_assoc]
    rw [basic_plain, alt_err (number_not_encoded h0 hi h1 h2 h3 hr)]
    · exact alt_ok (number_append h0 hi h1 h2 h3 hr)
    · intro hc
      rcases hh _ hc with h | h | h
      · exact absurd h (by decide)
      · exact absurd h (by decide)
      · exact absurd h (by decide)
    · intro c hc
      rcases hh _ hc with h | rfl | rfl
      · exact ⟨digit_not_alpha h, digit_ne h (by decide), digit_ne h (by decide)⟩
      · decide
      · decide
  | @rdf c ts t h1 h2 ht =>
    simp only [List.append_assoc, List.cons_append]
    rw [basic_plain (by simp) (by simp; decide), alt_err (encodedNumber_err (by simp)),
      alt_err (number_err (by simp; decide))]
    exact alt_ok (rdfLiteral_append h1 h2 ht hr)
  | @string c ls l h2 hl =>
    have hh := langText_head hl hr
    simp only [List.append_assoc, List.cons_append]
    rw [basic_plain (by simp) (by simp; decide), alt_err (encodedNumber_err (by simp)),
      alt_err (number_err (by simp; decide)),
      alt_err (rdfLiteral_err_string h2 (head_ne hh (by decide)))]
    apply alt_ok
    rw [stringLiteral, andThen_ok (quoted_append h2 (head_ne hh (by decide)))]
    exact pmap_ok (lang_append hl hr)
  | @multiline c ls l h2 hl =>
    simp only [List.append_assoc, List.cons_append]
    rw [basic_plain (by simp) (by simp; decide), alt_err (encodedNumber_err (by simp)),
      alt_err (number_err (by simp; decide)), alt_err]
    · apply alt_ok
      rw [stringLiteral, andThen_ok (quoted_multiline h2)]
      exact pmap_ok (lang_append hl hr)
    · rw [rdfLiteral, andThen_ok (tag1 '"' _)]
      exact andThen_err (stringText_err _)
  | @«variable» k n hn =>
    have hk : k.mark = '?' ∨ k.mark = '!' ∨ k.mark = '$' := by cases k <;> simp [VarKind.mark]
    have hk' : ∀ c, c ≠ '?' → c ≠ '!' → c ≠ '$' → (k.mark :: n ++ r).head? ≠ some c := by
      intro c h1 h2 h3
      simp only [List.cons_append, List.head?_cons, ne_eq, Option.some.injEq]
      rintro rfl
      rcases hk with h | h | h
      · exact h1 h
      · exact h2 h
      · exact h3 h
    rw [basic_plain (hk' _ (by decide) (by decide) (by decide)),
      alt_err (encodedNumber_err (hk' _ (by decide) (by decide) (by decide))), alt_err (number_err _),
      alt_err (rdfLiteral_err_head (hk' _ (by decide) (by decide) (by decide))),
      alt_err (stringLiteral_err_head (hk' _ (by decide) (by decide) (by decide)))]
    · exact variable_append hn hr
    · apply head_cons
      rcases hk with h | h | h <;> rw [h] <;> decide
    · apply head_cons
      rcases hk with h | h | h <;> rw [h] <;> decide
  | anonymous =>
    have hcol : ∀ r', r = ':' :: r' → r'.head? = some '-' := by
      rintro r' rfl
      exact hr.colon
    rw [basic, alt_err, alt_err (boolean_err_head (by simp) (by simp)), alt_err, alt_err
      (encodedNumber_err (by simp)), alt_err (number_err (by simp; decide)),
      alt_err (rdfLiteral_err_head (by simp)), alt_err (stringLiteral_err_head (by simp))]
    · exact anonymous_append r
    · rw [constant]
      exact pmap_err (structureTag_err (by simp; decide))
    · rw [blank]
      by_cases hc : r.head? = some ':'
      · cases r with
        | nil => simp at hc
        | cons c r =>
          simp only [List.head?_cons, Option.some.injEq] at hc
          subst hc
          have ht : tag ['_', ':'] (['_'] ++ ':' :: r) = .ok () r := tag_append ['_', ':'] _
          have hd := hcol r rfl
          rw [andThen_ok ht]
          apply pmap_err
          rw [alt_err (name_err (by rw [hd]; simp; decide))]
          exact digits_err (by rw [hd]; simp; decide)
      · exact andThen_err (tag_second hc)

/-- A basic expression is not read as a complex one. -/
theorem complex_err_basic {ex : P Ex} {e : Ex} {s r : Str} (h : BasicText e s) (hr : After r) :
    complex ex (s ++ r) = .err := by
  cases h with
  | true =>
    refine complex_err_tag (t := .plain "true".toList) (TagText.plain ?_) hr
    exact ⟨'t', ['r', 'u', 'e'], rfl, by decide, by decide⟩
  | false =>
    refine complex_err_tag (t := .plain "false".toList) (TagText.plain ?_) hr
    exact ⟨'f', ['a', 'l', 's', 'e'], rfl, by decide, by decide⟩
  | constant ht => exact complex_err_tag ht hr
  | blank => exact complex_err_head (by simp; decide)
  | encoded => exact complex_err_head (by simp; decide)
  | @number n sg fr es mk h0 hi h1 h2 h3 =>
    simp only [List.append_assoc]
    have hh := number_head (r := fr ++ (es ++ (mk ++ r))) h0 hi
    apply complex_err_head
    intro c hc
    rcases hh c hc with h | rfl | rfl
    · refine ⟨digit_not_alpha h, ?_⟩
      intro hm
      have := (by decide : ∀ c ∈ complexChars, isDigit c = false) c hm
      rw [h] at this
      exact Bool.noConfusion this
    · decide
    · decide
  | rdf => exact complex_err_head (by simp; decide)
  | string => exact complex_err_head (by simp; decide)
  | multiline => exact complex_err_head (by simp; decide)
  | @«variable» k => 
    apply complex_err_head
    apply head_cons
    cases k <;> decide
  | anonymous => exact complex_err_head (by simp; decide)

end Verif.Parse
