import Verif.ParseRecover

/-!
# The bound on the nesting depth does not matter

The model closes the recursion between the parsing functions with a bound `n` on the nesting depth.
Any bound larger than the length of the text gives the same result.
-/
namespace Verif.Parse

set_option linter.unusedSimpArgs false
set_option linter.unusedSectionVars false
set_option synthInstance.maxSize 4096
set_option synthInstance.maxHeartbeats 400000

/-- `p` and `q` do the same on texts shorter than `k`. -/
class Same (k : Nat) (p q : P α) : Prop where
  same : ∀ s : Str, s.length < k → p s = q s

section
variable {α β : Type} {k : Nat} {p q p' q' : P α} {f g : α → P β}

instance (priority := 2000) same_refl : Same k p p := ⟨fun _ _ => rfl⟩

instance (priority := 900) same_andThen [h1 : Same k p q] [h2 : Leaves p]
    [h3 : ∀ a, Same k (f a) (g a)] : Same k (andThen p f) (andThen q g) where
  same s hs := by
    unfold andThen
    rw [← h1.same s hs]
    cases e : p s with
    | ok a r => exact (h3 a).same r (Nat.lt_of_le_of_lt (Leaves.length e) hs)
    | err => rfl
    | fail => rfl

instance (priority := 1100) same_eats [h2 : Eats p] [h3 : ∀ a, Same k (f a) (g a)] :
    Same (k + 1) (andThen p f) (andThen p g) where
  same s hs := by
    unfold andThen
    cases e : p s with
    | ok a r =>
      have := Eats.shorter e
      exact (h3 a).same r (by omega)
    | err => rfl
    | fail => rfl

instance {f : α → β} [h : Same k p q] : Same k (pmap f p) (pmap f q) where
  same s hs := by
    unfold pmap
    rw [h.same s hs]

instance [h : Same k p q] [h' : Same k p' q'] : Same k (alt p p') (alt q q') where
  same s hs := by
    unfold alt
    rw [h.same s hs, h'.same s hs]

instance [h : Same k p q] : Same k (opt p) (opt q) where
  same s hs := by
    unfold opt
    rw [h.same s hs]

instance [h : Same k p q] [Leaves p] : Same k (many0 p) (many0 q) where
  same s hs := by
    have : ∀ (n : Nat) (s : Str), s.length < k → many0Aux p n s = many0Aux q n s := by
      intro n
      induction n with
      | zero => intro s _; rfl
      | succ n ih =>
        intro s hs
        simp only [many0Aux]
        rw [← h.same s hs]
        cases e : p s with
        | ok a r =>
          simp only
          rw [ih r (Nat.lt_of_le_of_lt (Leaves.length e) hs)]
        | err => rfl
        | fail => rfl
    exact this _ s hs

instance [Same k p q] [Leaves p] : Same k (many1 p) (many1 q) := by unfold many1; infer_instance

instance [Same k p q] [Leaves p] : Same k (sepList1 sepComma p) (sepList1 sepComma q) := by
  unfold sepList1; infer_instance

instance [Same k p q] [Leaves p] : Same k (sequence p) (sequence q) := by
  unfold sequence; infer_instance

instance {c : Char} {o cl : Str} [Same k p q] [Leaves p] :
    Same (k + 1) (bracketed (c :: o) cl p) (bracketed (c :: o) cl q) := by
  unfold bracketed; infer_instance
end

section
variable {k : Nat} {ex ex' ar ar' : P Ex} [Leaves ex] [Leaves ar] [Same k ex ex'] [Same k ar ar']
instance : Same (k + 1) (aggregation ex) (aggregation ex') := by unfold aggregation; infer_instance
instance : Same (k + 1) (operation ex) (operation ex') := by unfold operation; infer_instance
instance : Same (k + 1) (atom ex) (atom ex') := by unfold atom; infer_instance
instance : Same k (keyValue ex) (keyValue ex') := by unfold keyValue; infer_instance
instance : Same (k + 1) (mapP ex) (mapP ex') := by unfold mapP; infer_instance
instance : Same (k + 1) (negation ex) (negation ex') := by unfold negation; infer_instance
instance : Same (k + 1) (tuple ex) (tuple ex') := by unfold tuple; infer_instance
instance {ch : P Str} : Same (k + 1) (fElement ch ex) (fElement ch ex') := by
  unfold fElement; infer_instance
instance {c : P Str} [Eats c] : Same k (many0 (fElement c ex)) (many0 (fElement c ex')) := by
  have : Same k (fElement c ex) (fElement c ex') := by unfold fElement; infer_instance
  infer_instance
instance : Same (k + 1) (formatString ex) (formatString ex') := by unfold formatString; infer_instance
instance : Same (k + 1) (complex ex) (complex ex') := by unfold complex; infer_instance
instance : Same (k + 1) (nonArith ex) (nonArith ex') := by unfold nonArith; infer_instance
instance : Same k (nonArith ex) (nonArith ex') :=
  ⟨fun s hs => Same.same (k := k + 1) s (by omega)⟩
instance : Same (k + 1) (factor ex ar) (factor ex' ar') := by unfold factor; infer_instance
instance {op : P AOp} {p q : P Ex} [Leaves op] [Same k p q] :
    Same k (chainStep op p) (chainStep op q) := by
  unfold chainStep; infer_instance
instance : Same (k + 1) (product ex ar) (product ex' ar') := by unfold product; infer_instance
instance : Same (k + 1) (sum ex ar) (sum ex' ar') := by unfold sum; infer_instance
instance : Same (k + 1) (arithmetic ex ar) (arithmetic ex' ar') where
  same s hs := by
    unfold arithmetic
    rw [Same.same (p := sum ex ar) (q := sum ex' ar') s hs]
instance : Same (k + 1) (parenthesized ex) (parenthesized ex') := by unfold parenthesized; infer_instance
instance : Same (k + 1) (expr ex ar) (expr ex' ar') := by unfold expr; infer_instance
end

theorem both_same : ∀ {k n m : Nat}, k ≤ n → k ≤ m →
    Same k (both n).1 (both m).1 ∧ Same k (both n).2 (both m).2 := by
  intro k
  induction k with
  | zero =>
    intro n m _ _
    exact ⟨⟨fun s hs => absurd hs (by omega)⟩, ⟨fun s hs => absurd hs (by omega)⟩⟩
  | succ k ih =>
    intro n m hn hm
    obtain ⟨n, rfl⟩ : ∃ n', n = n' + 1 := ⟨n - 1, by omega⟩
    obtain ⟨m, rfl⟩ : ∃ m', m = m' + 1 := ⟨m - 1, by omega⟩
    obtain ⟨h1, h2⟩ := ih (n := n) (m := m) (by omega) (by omega)
    exact ⟨inferInstanceAs (Same (k + 1) (expr _ _) (expr _ _)),
      inferInstanceAs (Same (k + 1) (arithmetic _ _) (arithmetic _ _))⟩

section
variable {k n m : Nat} {ex ex' : P Ex} [Leaves ex] [Same k ex ex']

instance : Same k (complex ex) (complex ex') := ⟨fun s hs => Same.same (k := k + 1) s (by omega)⟩
instance : Same k (atom ex) (atom ex') := ⟨fun s hs => Same.same (k := k + 1) s (by omega)⟩
instance : Same k (mapP ex) (mapP ex') := ⟨fun s hs => Same.same (k := k + 1) s (by omega)⟩
instance : Same k (infixExpr ex) (infixExpr ex') := by unfold infixExpr; infer_instance

theorem same_bracketed {α : Type} {c : Char} {o cl : Str} {p q : P α} [Same k p q] [Leaves p] :
    Same k (bracketed (c :: o) cl p) (bracketed (c :: o) cl q) :=
  ⟨fun s hs => Same.same (k := k + 1) s (by omega)⟩

variable [h : Same k (expression n) (expression m)]
instance : Same k (guard n) (guard m) := by unfold guard; infer_instance
instance : Same k (rule n) (rule m) := by unfold rule; infer_instance
instance : Same k (attributeP n) (attributeP m) := by
  unfold attributeP
  have := same_bracketed (k := k) (c := '#') (o := ['[']) (cl := [']']) (p := atom (expression n))
    (q := atom (expression m))
  infer_instance
instance {f : Tag → Ex → Option (List Guard) → DirectiveAst} : Same k (ioBody n f) (ioBody m f) := by
  unfold ioBody; infer_instance
instance : Same k (exportD n) (exportD m) := by unfold exportD; infer_instance
instance : Same k (importD n) (importD m) := by unfold importD; infer_instance
instance : Same k (parameterD n) (parameterD m) := by unfold parameterD; infer_instance
instance : Same k (consumed (expression n)) (consumed (expression m)) where
  same s hs := by
    unfold consumed
    rw [h.same s hs]
instance : Same k (unknownD n) (unknownD m) := by unfold unknownD; infer_instance
instance : Same k (directive n) (directive m) := by unfold directive; infer_instance
instance : Same k (statementKind n) (statementKind m) := by unfold statementKind; infer_instance
instance : Same k (statement n) (statement m) := by unfold statement; infer_instance
instance : Same k (recover (statement n)) (recover (statement m)) where
  same s hs := by
    unfold recover
    rw [Same.same (p := statement n) (q := statement m) s hs]
instance : Same k (statementRound n) (statementRound m) := by unfold statementRound; infer_instance
instance : Same k (program n) (program m) := by unfold program; infer_instance
end

/-- Any bound on the nesting depth that exceeds the length of the text gives the same program. -/
theorem program_bound {s : Str} {n m : Nat} (hn : s.length < n) (hm : s.length < m) :
    program n s = program m s := by
  have : Same (s.length + 1) (expression n) (expression m) :=
    (both_same (k := s.length + 1) (by omega) (by omega)).1
  exact Same.same (k := s.length + 1) s (by omega)

end Verif.Parse
