import Verif.ParseTotal

/-!
# Reading never gets stuck, and errors stay local

Every text is read to its end: the parser always returns a program, what it leaves over is white space
and comments, and a part of the text that cannot be read becomes one error statement.
-/
namespace Verif.Parse

set_option linter.unusedSimpArgs false

/-! ## Parsers that do not fail hard -/

/-- `p` never fails hard. -/
class Soft (p : P α) : Prop where
  soft : ∀ s, p s ≠ .fail

section
variable {α β : Type} {p q : P α} {f : α → P β}

instance {a : α} : Soft (ret a) := ⟨fun s h => by cases h⟩

instance [h : Soft p] [h' : ∀ a, Soft (f a)] : Soft (andThen p f) where
  soft s e := by
    unfold andThen at e
    split at e
    · exact (h' _).soft _ e
    · cases e
    · exact h.soft _ (by assumption)

instance {f : α → β} [h : Soft p] : Soft (pmap f p) where
  soft s e := by
    unfold pmap at e
    split at e
    · cases e
    · cases e
    · exact h.soft _ (by assumption)

instance [h : Soft p] [h' : Soft q] : Soft (alt p q) where
  soft s e := by
    unfold alt at e
    split at e
    · exact h'.soft _ e
    · cases e
    · exact h.soft _ (by assumption)

theorem opt_total [h : Soft p] (s : Str) : ∃ a r, opt p s = .ok a r := by
  unfold opt
  split
  · exact ⟨_, _, rfl⟩
  · exact ⟨_, _, rfl⟩
  · exact absurd (by assumption) (h.soft s)

/-- Repeating a parser that eats: it stops exactly where the parser has an error. -/
theorem many0_total [he : Eats p] [h : Soft p] (s : Str) :
    ∃ l r, many0 p s = .ok l r ∧ p r = .err ∧ ManySteps p s l r := by
  have key : ∀ (n : Nat) (s : Str), s.length = n → ∃ l r, ManySteps p s l r ∧ p r = .err := by
    intro n
    induction n using Nat.strongRecOn with
    | ind n ih =>
      rintro s rfl
      cases e : p s with
      | err => exact ⟨[], s, .nil, e⟩
      | fail => exact absurd e (h.soft s)
      | ok a t =>
        obtain ⟨l, r, h1, h2⟩ := ih t.length (he.shorter e) t rfl
        exact ⟨a :: l, r, .cons e (he.shorter e) h1, h2⟩
  obtain ⟨l, r, h1, h2⟩ := key _ s rfl
  exact ⟨l, r, h1.many0 h2, h2, h1⟩

instance [Eats p] [Soft p] : Soft (many0 p) where
  soft s e := by
    obtain ⟨l, r, h, _⟩ := many0_total (p := p) s
    rw [h] at e
    cases e

instance [Eats p] [Soft p] : Soft (many1 p) := by unfold many1; infer_instance
end

instance {t : Str} : Soft (tag t) where
  soft s e := by
    simp only [tag] at e
    split at e <;> cases e

instance {f : Char → Bool} : Soft (takeWhile1 f) where
  soft s e := by
    simp only [takeWhile1] at e
    split at e <;> cases e

instance {t : Str} : Soft (takeUntil t) where
  soft s := by
    induction s with
    | nil =>
      intro e
      simp only [takeUntil] at e
      split at e <;> cases e
    | cons c s ih =>
      intro e
      simp only [takeUntil] at e
      split at e
      · cases e
      · split at e
        · cases e
        · cases e
        · exact ih (by assumption)

instance : Soft commentMark where
  soft s e := by
    simp only [commentMark] at e
    split at e
    · cases e
    · split at e
      · cases e
      · exact Soft.soft _ e

instance : Soft notLineEnding where
  soft s e := by
    simp only [notLineEnding] at e
    split at e <;> cases e

instance : Soft lineEnd where
  soft s e := by
    simp only [lineEnd] at e
    split at e <;> cases e

instance : Soft lineEnding where
  soft s e := by
    simp only [lineEnding] at e
    split at e <;> cases e

instance : Soft lineComment := by unfold lineComment; infer_instance
instance : Soft closedComment := by unfold closedComment; infer_instance
instance : Soft wsStep := by unfold wsStep; infer_instance

theorem wsoc_total (s : Str) : ∃ r, wsoc s = .ok () r ∧ wsStep r = .err := by
  obtain ⟨l, r, h, h1, _⟩ := many0_total (p := wsStep) s
  exact ⟨r, pmap_ok h, h1⟩

instance {m : Str} : Soft (commentLine m) where
  soft _ e := Soft.soft (p := andThen (tag m) fun _ =>
    andThen notLineEnding fun c => andThen lineEnd fun _ => ret c) _ e

instance : Soft topLevelComment := by unfold topLevelComment; infer_instance
instance {m : Str} : Soft (skipDot m) := by unfold skipDot; infer_instance
instance {m : Str} : Soft (skipBlankLine m) := by unfold skipBlankLine; infer_instance

/-! ## Recovery -/

theorem skipStatement_total {s : Str} (hs : s ≠ []) :
    ∃ t r, skipStatement s = .ok t r ∧ r <:+ s ∧ r.length < s.length := by
  have step : ∀ {p q : P Str} [Eats p] [Soft p],
      (∃ t r, q s = .ok t r ∧ r <:+ s ∧ r.length < s.length) →
      ∃ t r, alt p q s = .ok t r ∧ r <:+ s ∧ r.length < s.length := by
    intro p q h1 h2 h
    cases e : p s with
    | ok a r => exact ⟨a, r, alt_ok e, h1.suffix e, h1.shorter e⟩
    | err => rw [alt_err e]; exact h
    | fail => exact absurd e (h2.soft s)
  unfold skipStatement
  refine step (step (step (step (step (step ?_)))))
  exact ⟨s, [], rfl, List.nil_suffix, List.length_pos_iff.mpr hs⟩

theorem recover_total (n : Nat) {s : Str} (hs : s ≠ []) :
    ∃ a r, recover (statement n) s = .ok a r ∧ r <:+ s ∧ r.length < s.length := by
  obtain ⟨t, r, h1, h2, h3⟩ := skipStatement_total hs
  cases e : statement n s with
  | ok a r => exact ⟨a, r, recover_ok e, Eats.suffix e, Eats.shorter e⟩
  | err =>
    refine ⟨⟨none, [], .error t⟩, r, ?_, h2, h3⟩
    simp only [recover, e, if_neg hs]
    exact pmap_ok h1
  | fail =>
    refine ⟨⟨none, [], .error t⟩, r, ?_, h2, h3⟩
    simp only [recover, e, if_neg hs]
    exact pmap_ok h1

theorem recover_nil (n : Nat) : recover (statement n) [] = .err := by
  simp [recover, statement_nil]

instance {n : Nat} : Eats (recover (statement n)) where
  suffix {s r a} e := by
    by_cases hs : s = []
    · subst hs
      rw [recover_nil] at e
      cases e
    · obtain ⟨a', r', h1, h2, h3⟩ := recover_total n hs
      rw [h1] at e
      cases e
      exact h2
  shorter {s r a} e := by
    by_cases hs : s = []
    · subst hs
      rw [recover_nil] at e
      cases e
    · obtain ⟨a', r', h1, h2, h3⟩ := recover_total n hs
      rw [h1] at e
      cases e
      exact h3

instance {n : Nat} : Soft (recover (statement n)) where
  soft s e := by
    by_cases hs : s = []
    · subst hs
      rw [recover_nil] at e
      cases e
    · obtain ⟨a', r', h1, h2, h3⟩ := recover_total n hs
      rw [h1] at e
      cases e

instance : Soft wsoc where
  soft s e := by
    obtain ⟨r, h, _⟩ := wsoc_total s
    rw [h] at e
    cases e

instance {n : Nat} : Eats (statementRound n) := by unfold statementRound; infer_instance
instance {n : Nat} : Soft (statementRound n) := by unfold statementRound; infer_instance

theorem round_err {n : Nat} {s : Str} (h : statementRound n s = .err) : wsoc s = .ok () [] := by
  obtain ⟨t, h1, _⟩ := wsoc_total s
  by_cases ht : t = []
  · rw [h1, ht]
  · obtain ⟨a, r, h2, _⟩ := recover_total n ht
    obtain ⟨r', h3, _⟩ := wsoc_total r
    rw [statementRound, andThen_ok h1, andThen_ok h2, andThen_ok h3] at h
    cases h

/-- Every text is read to its end. -/
theorem program_total (n : Nat) (s : Str) :
    ∃ p r, program n s = .ok p r ∧ wsoc r = .ok () [] := by
  obtain ⟨c, t, h1⟩ := opt_total (p := topLevelComment) s
  obtain ⟨l, r, h2, h3, _⟩ := many0_total (p := statementRound n) t
  exact ⟨⟨c, l⟩, r, by rw [program, andThen_ok h1]; exact pmap_ok h2, round_err h3⟩

theorem parse_total (s : Str) : ∃ p, (parse s = .ok p ∧ ∀ a ∈ p.statements, a.isError = false) ∨
    (parse s = .errors p ∧ ∃ a ∈ p.statements, a.isError = true) := by
  obtain ⟨p, r, h, _⟩ := program_total (s.length + 1) s
  refine ⟨p, ?_⟩
  cases he : p.statements.any StmtAst.isError with
  | false =>
    refine Or.inl ⟨by simp [parse, h, he], ?_⟩
    simpa using he
  | true =>
    refine Or.inr ⟨by simp [parse, h, he], ?_⟩
    simpa using he

end Verif.Parse
