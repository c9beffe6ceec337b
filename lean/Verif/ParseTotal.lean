import Verif.ParseProgramProofs

/-!
# What the parsers leave over

`Leaves p`: whatever `p` does not read is an end part of the text.  `Eats p`: moreover `p` reads at
least one character.  Both are type classes, so that Lean composes the proofs along the combinators.
-/
namespace Verif.Parse

set_option linter.unusedSimpArgs false
set_option linter.unusedSectionVars false
set_option synthInstance.maxSize 4096
set_option synthInstance.maxHeartbeats 400000

/-- The rest that `p` leaves over is an end part of the text. -/
class Leaves (p : P α) : Prop where
  suffix : ∀ {s r : Str} {a : α}, p s = .ok a r → r <:+ s

/-- Moreover `p` reads at least one character. -/
class Eats (p : P α) : Prop where
  suffix : ∀ {s r : Str} {a : α}, p s = .ok a r → r <:+ s
  shorter : ∀ {s r : Str} {a : α}, p s = .ok a r → r.length < s.length

section
variable {α β : Type} {p q : P α} {sep : P Unit} {f : α → P β}

instance (priority := low) [h : Eats p] : Leaves p := ⟨h.suffix⟩

theorem Leaves.length {p : P α} [h : Leaves p] {s r : Str} {a : α} (e : p s = .ok a r) :
    r.length ≤ s.length := (h.suffix e).length_le

/-! ## Combinators -/

instance {a : α} : Leaves (ret a) where
  suffix h := by
    simp only [ret, Res.ok.injEq] at h
    exact h.2 ▸ List.suffix_refl _

instance [h : Leaves p] [h' : ∀ a, Leaves (f a)] : Leaves (andThen p f) where
  suffix e := by
    obtain ⟨a, t, e1, e2⟩ := andThen_inv e
    exact ((h' a).suffix e2).trans (h.suffix e1)

instance (priority := 900) eatsLeft [h : Eats p] [h' : ∀ a, Leaves (f a)] :
    Eats (andThen p f) where
  suffix e := by
    obtain ⟨a, t, e1, e2⟩ := andThen_inv e
    exact ((h' a).suffix e2).trans (h.suffix e1)
  shorter e := by
    obtain ⟨a, t, e1, e2⟩ := andThen_inv e
    have h1 := ((h' a).suffix e2).length_le
    have h2 := h.shorter e1
    omega

instance (priority := 800) eatsRight [h : Leaves p] [h' : ∀ a, Eats (f a)] :
    Eats (andThen p f) where
  suffix e := by
    obtain ⟨a, t, e1, e2⟩ := andThen_inv e
    exact ((h' a).suffix e2).trans (h.suffix e1)
  shorter e := by
    obtain ⟨a, t, e1, e2⟩ := andThen_inv e
    have h1 := (h.suffix e1).length_le
    have h2 := (h' a).shorter e2
    omega

instance {f : α → β} [h : Leaves p] : Leaves (pmap f p) where
  suffix e := by
    obtain ⟨a, e1, e2⟩ := pmap_inv e
    exact h.suffix e1

instance {f : α → β} [h : Eats p] : Eats (pmap f p) where
  suffix e := by
    obtain ⟨a, e1, e2⟩ := pmap_inv e
    exact h.suffix e1
  shorter e := by
    obtain ⟨a, e1, e2⟩ := pmap_inv e
    exact h.shorter e1

instance [h : Leaves p] [h' : Leaves q] : Leaves (alt p q) where
  suffix e := by
    rcases alt_inv e with e | ⟨_, e⟩
    · exact h.suffix e
    · exact h'.suffix e

instance [h : Eats p] [h' : Eats q] : Eats (alt p q) where
  suffix e := by
    rcases alt_inv e with e | ⟨_, e⟩
    · exact h.suffix e
    · exact h'.suffix e
  shorter e := by
    rcases alt_inv e with e | ⟨_, e⟩
    · exact h.shorter e
    · exact h'.shorter e

instance [h : Leaves p] : Leaves (opt p) where
  suffix {s r a} e := by
    simp only [opt] at e
    split at e <;> cases e
    · exact h.suffix (by assumption)
    · exact List.suffix_refl _

instance [h : Leaves p] : Leaves (cut p) where
  suffix {s r a} e := by
    simp only [cut] at e
    split at e <;> cases e
    exact h.suffix (by assumption)

theorem many0Aux_inv {p : P α} : ∀ {n : Nat} {s r : Str} {l : List α}, many0Aux p n s = .ok l r →
    (l = [] ∧ r = s) ∨ ∃ a t l', l = a :: l' ∧ p s = .ok a t ∧
      many0Aux p (n - 1) t = .ok l' r ∧ n ≠ 0 := by
  intro n s r l h
  cases n with
  | zero =>
    simp only [many0Aux, Res.ok.injEq] at h
    exact Or.inl ⟨h.1.symm, h.2.symm⟩
  | succ n =>
    simp only [many0Aux] at h
    split at h
    · cases h; exact Or.inl ⟨rfl, rfl⟩
    · cases h
    · rename_i a t e1
      split at h
      · cases h
      · split at h <;> cases h
        rename_i e2
        exact Or.inr ⟨a, t, _, rfl, e1, e2, by simp⟩

instance [h : Leaves p] : Leaves (many0 p) where
  suffix {s r a} e := by
    have : ∀ (n : Nat) (s : Str) (l : List α), many0Aux p n s = .ok l r → r <:+ s := by
      intro n
      induction n with
      | zero =>
        intro s l e
        simp only [many0Aux, Res.ok.injEq] at e
        exact e.2 ▸ List.suffix_refl _
      | succ n ih =>
        intro s l e
        obtain ⟨_, rfl⟩ | ⟨a, t, l', _, e1, e2, _⟩ := many0Aux_inv e
        · exact List.suffix_refl _
        · exact (ih t l' e2).trans (h.suffix e1)
    exact this _ _ _ e

instance [h : Leaves p] : Leaves (many1 p) := by unfold many1; infer_instance
instance [h : Eats p] : Eats (many1 p) := by unfold many1; infer_instance
instance [Leaves sep] [h : Leaves p] : Leaves (sepList1 sep p) := by unfold sepList1; infer_instance
instance [Leaves sep] [h : Eats p] : Eats (sepList1 sep p) := by unfold sepList1; infer_instance

end

/-! ## Tokens -/

instance {t : Str} : Leaves (tag t) where
  suffix {s r a} e := by
    simp only [tag] at e
    split at e <;> cases e
    exact List.drop_suffix _ _

instance {c : Char} {t : Str} : Eats (tag (c :: t)) where
  suffix e := Leaves.suffix e
  shorter {s r a} e := by
    simp only [tag] at e
    split at e <;> cases e
    rename_i h
    have := (List.isPrefixOf_iff_prefix.mp h).length_le
    simp only [List.length_cons, List.length_drop] at *
    omega

instance {f : Char → Bool} : Eats (takeWhile1 f) where
  suffix {s r a} e := by
    simp only [takeWhile1] at e
    split at e <;> cases e
    exact List.dropWhile_suffix _
  shorter {s r a} e := by
    simp only [takeWhile1] at e
    split at e <;> cases e
    rename_i h
    have h1 := congrArg List.length (List.takeWhile_append_dropWhile (p := f) (l := s))
    have h2 : 0 < (s.takeWhile f).length := List.length_pos_iff.mpr h
    simp only [List.length_append] at h1
    omega

theorem takeUntil_split {t : Str} : ∀ {s a r : Str}, takeUntil t s = .ok a r → s = a ++ r := by
  intro s
  induction s with
  | nil =>
    intro a r e
    simp only [takeUntil] at e
    split at e <;> cases e
    rfl
  | cons c s ih =>
    intro a r e
    simp only [takeUntil] at e
    split at e
    · cases e; rfl
    · split at e <;> cases e
      rename_i a' e'
      rw [ih e', List.cons_append]

instance {t : Str} : Leaves (takeUntil t) where
  suffix e := ⟨_, (takeUntil_split e).symm⟩

instance {a : Str} {f : Char → Bool} : Leaves (fun s => Res.ok (a ++ s.takeWhile f) (s.dropWhile f)) where
  suffix e := by
    cases e
    exact List.dropWhile_suffix _

instance : Eats name := by unfold name; infer_instance
instance : Eats iriText := by unfold iriText; infer_instance
instance : Eats stringText := by unfold stringText; infer_instance
instance : Eats digits := by unfold digits; infer_instance

theorem keyword_eats {table : List Str} (h : ∀ k ∈ table, k ≠ []) : Eats (keyword table) where
  suffix {s r a} e := by
    simp only [keyword] at e
    split at e <;> cases e
    exact List.drop_suffix _ _
  shorter {s r a} e := by
    simp only [keyword] at e
    split at e <;> cases e
    rename_i hf
    have h1 := List.mem_of_find?_eq_some hf
    have h2 := List.find?_some hf
    have h3 := (List.isPrefixOf_iff_prefix.mp h2).length_le
    have h4 := List.length_pos_iff.mpr (h _ h1)
    simp only [lowers, List.length_map, List.length_drop] at *
    omega

instance : Eats (keyword opTable) := keyword_eats (by decide)
instance : Eats (keyword aggTable) := keyword_eats (by decide)

instance : Eats commentMark where
  suffix {s r a} e := by
    simp only [commentMark] at e
    split at e
    · cases e; exact List.dropWhile_suffix _
    · split at e
      · cases e
      · exact Leaves.suffix e
  shorter {s r a} e := by
    simp only [commentMark] at e
    split at e
    · rename_i h
      cases e
      obtain ⟨t, rfl⟩ := List.isPrefixOf_iff_prefix.mp h
      have := (List.dropWhile_suffix (l := t) (· == '%')).length_le
      simp
      omega
    · split at e
      · cases e
      · exact Eats.shorter e

instance : Leaves notLineEnding where
  suffix {s r a} e := by
    have h := List.dropWhile_suffix (l := s) fun c => !(c == '\r' || c == '\n')
    simp only [notLineEnding] at e
    split at e
    · rename_i h1
      cases e
      exact h1 ▸ h
    · cases e
    · cases e
      exact h

instance : Leaves lineEnd where
  suffix {s r a} e := by
    simp only [lineEnd] at e
    split at e <;> cases e
    · exact List.suffix_refl _
    · exact List.suffix_cons _ _
    · exact (List.suffix_cons _ _).trans (List.suffix_cons _ _)

instance : Eats lineEnding where
  suffix {s r a} e := by
    simp only [lineEnding] at e
    split at e <;> cases e
    · exact List.suffix_cons _ _
    · exact (List.suffix_cons _ _).trans (List.suffix_cons _ _)
  shorter {s r a} e := by
    simp only [lineEnding] at e
    split at e <;> cases e <;> simp only [List.length_cons] <;> omega

instance : Eats lineComment := by unfold lineComment; infer_instance
instance : Eats closedComment := by unfold closedComment; infer_instance
instance : Eats wsStep := by unfold wsStep; infer_instance
instance : Leaves wsoc := by unfold wsoc; infer_instance
instance : Eats sepComma := by unfold sepComma; infer_instance
instance {α : Type} {p : P α} [Leaves p] : Leaves (sequence p) := by unfold sequence; infer_instance
instance {α : Type} {p : P α} {c : Char} {o cl : Str} [Leaves p] : Eats (bracketed (c :: o) cl p) := by unfold bracketed; infer_instance

/-! ## Expressions -/

instance : Eats iri := by unfold iri; infer_instance
instance : Eats structureTag := by unfold structureTag; infer_instance
instance : Eats blank := by unfold blank; infer_instance
instance : Eats boolean := by unfold boolean; infer_instance
instance : Eats constant := by unfold constant; infer_instance
instance : Eats encodedNumber := by unfold encodedNumber; infer_instance
instance : Eats sign := by unfold sign; infer_instance
instance : Eats fractional := by unfold fractional; infer_instance
instance : Eats exponent := by unfold exponent; infer_instance
instance : Eats typeMarker := by unfold typeMarker; infer_instance
instance : Eats number := by unfold number; infer_instance
instance : Eats rdfLiteral := by unfold rdfLiteral; infer_instance
instance : Eats quoted := by unfold quoted; infer_instance
instance : Eats stringLiteral := by unfold stringLiteral; infer_instance
instance : Eats variableP := by unfold variableP; infer_instance
instance : Eats basic := by unfold basic; infer_instance

theorem multilineChunk_go_split : ∀ {s a b : Str}, multilineChunk.go s = some (a, b) → s = a ++ b := by
  intro s
  induction s with
  | nil => intro a b h; simp [multilineChunk.go] at h
  | cons c s ih =>
    intro a b h
    simp only [multilineChunk.go] at h
    split at h
    · simp only [Option.some.injEq, Prod.mk.injEq] at h
      rw [← h.1, ← h.2]
      rfl
    · rw [Option.map_eq_some_iff] at h
      obtain ⟨⟨a', b'⟩, h1, h2⟩ := h
      simp only [Prod.mk.injEq] at h2
      rw [← h2.1, ← h2.2, List.cons_append, ← ih h1]

theorem multilineChunk_split {s a r : Str} (e : multilineChunk s = .ok a r) : a ≠ [] ∧ s = a ++ r := by
  cases s with
  | nil => simp [multilineChunk] at e
  | cons c s =>
    simp only [multilineChunk] at e
    split at e
    · cases e
    · split at e <;> cases e
      rename_i h
      exact ⟨by simp, by rw [multilineChunk_go_split h, List.cons_append]⟩

instance : Eats multilineChunk where
  suffix e := ⟨_, (multilineChunk_split e).2.symm⟩
  shorter e := by
    obtain ⟨h1, h2⟩ := multilineChunk_split e
    have := List.length_pos_iff.mpr h1
    rw [h2, List.length_append]
    omega

section
variable {ex ar : P Ex} [Leaves ex] [Leaves ar]
instance : Eats (aggregation ex) := by unfold aggregation; infer_instance
instance : Eats (operation ex) := by unfold operation; infer_instance
instance : Eats (atom ex) := by unfold atom; infer_instance
instance : Leaves (keyValue ex) := by unfold keyValue; infer_instance
instance : Eats (mapP ex) := by unfold mapP; infer_instance
instance : Eats (negation ex) := by unfold negation; infer_instance
instance : Eats (tuple ex) := by unfold tuple; infer_instance
instance {ch : P Str} [Eats ch] : Eats (fElement ch ex) := by unfold fElement; infer_instance
instance : Eats (formatString ex) := by unfold formatString; infer_instance
instance : Eats (complex ex) := by unfold complex; infer_instance
instance : Eats (nonArith ex) := by unfold nonArith; infer_instance
instance : Eats (factor ex ar) := by unfold factor; infer_instance
instance : Eats mulOp := by unfold mulOp; infer_instance
instance : Eats addOp := by unfold addOp; infer_instance
instance {op : P AOp} {p : P Ex} [Leaves op] [Leaves p] : Leaves (chainStep op p) := by unfold chainStep; infer_instance
instance {op : P AOp} {p : P Ex} [Leaves op] [Eats p] : Eats (chainStep op p) := by unfold chainStep; infer_instance
instance : Eats (product ex ar) := by unfold product; infer_instance
instance : Eats (sum ex ar) := by unfold sum; infer_instance

theorem arithmetic_inv {s r : Str} {e : Ex} (h : arithmetic ex ar s = .ok e r) :
    sum ex ar s = .ok e r := by
  simp only [arithmetic] at h
  split at h <;> cases h
  assumption

instance : Eats (arithmetic ex ar) where
  suffix e := Eats.suffix (arithmetic_inv e)
  shorter e := Eats.shorter (arithmetic_inv e)

instance : Eats (parenthesized ex) := by unfold parenthesized; infer_instance
instance : Eats (expr ex ar) := by unfold expr; infer_instance
end

instance {α : Type} : Eats (fun _ => Res.err : P α) where
  suffix e := by cases e
  shorter e := by cases e

theorem both_eats (n : Nat) : Eats (both n).1 ∧ Eats (both n).2 := by
  induction n with
  | zero => exact ⟨inferInstanceAs (Eats fun _ => Res.err), inferInstanceAs (Eats fun _ => Res.err)⟩
  | succ n ih =>
    obtain ⟨h1, h2⟩ := ih
    exact ⟨inferInstanceAs (Eats (expr _ _)), inferInstanceAs (Eats (arithmetic _ _))⟩

instance {n : Nat} : Eats (both n).1 := (both_eats n).1
instance {n : Nat} : Eats (both n).2 := (both_eats n).2
instance {n : Nat} : Eats (expression n) := (both_eats n).1
instance : Eats infixOp := by unfold infixOp; infer_instance
instance {ex : P Ex} [Eats ex] : Eats (infixExpr ex) := by unfold infixExpr; infer_instance
instance {n : Nat} : Eats (guard n) := by unfold guard; infer_instance
instance {n : Nat} : Eats (rule n) := by unfold rule; infer_instance

/-! ## Statements -/

instance {c : Char} {m : Str} : Eats (commentLine (c :: m)) where
  suffix {s r a} e := (Eats.suffix (p := andThen (tag (c :: m)) _) e).trans (List.dropWhile_suffix _)
  shorter {s r a} e := by
    have h1 := Eats.shorter (p := andThen (tag (c :: m)) _) e
    have h2 := (List.dropWhile_suffix (l := s) fun c => c == ' ' || c == '\t').length_le
    omega

instance : Eats docComment := by unfold docComment; infer_instance
instance : Eats topLevelComment := by unfold topLevelComment; infer_instance
instance {n : Nat} : Eats (attributeP n) := by unfold attributeP; infer_instance

instance {k : Str} : Leaves (fun s => match name s with
    | .ok a r => if a = k then .ok () r else .err
    | .err => .err
    | .fail => .fail : P Unit) where
  suffix {s r a} e := by
    split at e
    · split at e <;> cases e
      exact Leaves.suffix (by assumption)
    · cases e
    · cases e

instance {k : Str} : Eats (directiveKey k) := by unfold directiveKey; infer_instance
instance : Eats baseD := by unfold baseD; infer_instance

instance : Leaves dataType where
  suffix {s r a} e := by
    simp only [dataType] at e
    split at e <;> cases e
    exact List.drop_suffix _ _

instance : Leaves nameType := by unfold nameType; infer_instance
instance : Eats declareD := by unfold declareD; infer_instance
instance {n : Nat} {f : Tag → Ex → Option (List Guard) → DirectiveAst} : Leaves (ioBody n f) := by unfold ioBody; infer_instance
instance {n : Nat} : Eats (exportD n) := by unfold exportD; infer_instance
instance {n : Nat} : Eats (importD n) := by unfold importD; infer_instance
instance : Eats outputD := by unfold outputD; infer_instance
instance : Eats prefixD := by unfold prefixD; infer_instance
instance {n : Nat} : Eats (parameterD n) := by unfold parameterD; infer_instance

instance : Leaves unknownName where
  suffix {s r a} e := by
    simp only [unknownName] at e
    split at e
    · split at e <;> cases e
      exact Leaves.suffix (by assumption)
    · cases e

instance {α : Type} {p : P α} [Leaves p] : Leaves (consumed p) where
  suffix {s r a} e := by
    simp only [consumed] at e
    split at e <;> cases e
    exact Leaves.suffix (by assumption)

instance {n : Nat} : Eats (unknownD n) := by unfold unknownD; infer_instance
instance {n : Nat} : Eats (directive n) := by unfold directive; infer_instance
instance {n : Nat} : Eats (statementKind n) := by unfold statementKind; infer_instance
instance {n : Nat} : Eats (statement n) := by unfold statement; infer_instance
instance {m : Str} : Eats (skipDot m) := by unfold skipDot; infer_instance
instance {m : Str} : Eats (skipBlankLine m) := by unfold skipBlankLine; infer_instance

end Verif.Parse
