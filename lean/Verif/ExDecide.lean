import Verif.ExInduction
import Verif.ParseStatement

/-!
# Equality of syntax trees can be decided

Used in examples only: two syntax trees are compared by evaluation.
-/
namespace Verif.Parse

mutual
/-- The expressions are the same. -/
def Ex.same : Ex → Ex → Bool
  | .aggregation k e ds, .aggregation k' e' ds' => k == k' && e.same e' && Ex.sameAll ds ds'
  | .arithmetic o l r, .arithmetic o' l' r' => o == o' && l.same l' && r.same r'
  | .atom t es, .atom t' es' => t == t' && Ex.sameAll es es'
  | .blank n, .blank n' => n == n'
  | .boolean b, .boolean b' => b == b'
  | .constant t, .constant t' => t == t'
  | .formatString fs, .formatString fs' => Ex.samePieces fs fs'
  | .map t kvs, .map t' kvs' => t == t' && Ex.sameEntries kvs kvs'
  | .negation e, .negation e' => e.same e'
  | .number n, .number n' => n == n'
  | .encoded e ds, .encoded e' ds' => e == e' && ds == ds'
  | .operation k es, .operation k' es' => k == k' && Ex.sameAll es es'
  | .parenthesized e, .parenthesized e' => e.same e'
  | .rdf s t, .rdf s' t' => s == s' && t == t'
  | .string s l, .string s' l' => s == s' && l == l'
  | .tuple es, .tuple es' => Ex.sameAll es es'
  | .variable k n, .variable k' n' => k == k' && n == n'
  | .anonymous, .anonymous => true
  | _, _ => false
/-- The same for lists. -/
def Ex.sameAll : List Ex → List Ex → Bool
  | [], [] => true
  | a :: as, b :: bs => a.same b && Ex.sameAll as bs
  | _, _ => false
/-- The same for the pieces of a format string. -/
def Ex.samePieces : List (FEl Ex) → List (FEl Ex) → Bool
  | [], [] => true
  | f :: fs, f' :: fs' => Ex.samePiece f f' && Ex.samePieces fs fs'
  | _, _ => false
/-- The same for one piece. -/
def Ex.samePiece : FEl Ex → FEl Ex → Bool
  | .text s, .text s' => s == s'
  | .expr a, .expr b => a.same b
  | .openBrace, .openBrace => true
  | .closeBrace, .closeBrace => true
  | _, _ => false
/-- The same for the entries of a map. -/
def Ex.sameEntries : List (Ex × Ex) → List (Ex × Ex) → Bool
  | [], [] => true
  | p :: ps, q :: qs => Ex.sameEntry p q && Ex.sameEntries ps qs
  | _, _ => false
/-- The same for one entry. -/
def Ex.sameEntry : Ex × Ex → Ex × Ex → Bool
  | (a, b), (c, d) => a.same c && b.same d
end

theorem sameAll_iff {as : List Ex} (h : ∀ a ∈ as, ∀ b, a.same b = true ↔ a = b) (bs : List Ex) :
    Ex.sameAll as bs = true ↔ as = bs := by
  induction as generalizing bs with
  | nil => cases bs <;> simp [Ex.sameAll]
  | cons a as ih =>
    cases bs with
    | nil => simp [Ex.sameAll]
    | cons b bs => simp [Ex.sameAll, h a (by simp) b, ih (fun x hx => h x (by simp [hx])) bs]

theorem samePieces_iff {fs : List (FEl Ex)} (h : ∀ a, .expr a ∈ fs → ∀ b, a.same b = true ↔ a = b) (gs : List (FEl Ex)) :
    Ex.samePieces fs gs = true ↔ fs = gs := by
  induction fs generalizing gs with
  | nil => cases gs <;> simp [Ex.samePieces]
  | cons f fs ih =>
    cases gs with
    | nil => simp [Ex.samePieces]
    | cons g gs =>
      rw [Ex.samePieces, Bool.and_eq_true, ih (fun x hx => h x (by simp [hx])) gs, List.cons.injEq]
      refine and_congr_left fun _ => ?_
      cases f <;> cases g <;> simp [Ex.samePiece]
      rename_i a b
      exact h a (by simp) b

theorem sameEntries_iff {ps : List (Ex × Ex)} (h : ∀ k v, (k, v) ∈ ps → ∀ b, (k.same b = true ↔ k = b) ∧ (v.same b = true ↔ v = b))
    (qs : List (Ex × Ex)) : Ex.sameEntries ps qs = true ↔ ps = qs := by
  induction ps generalizing qs with
  | nil => cases qs <;> simp [Ex.sameEntries]
  | cons p ps ih =>
    cases qs with
    | nil => simp [Ex.sameEntries]
    | cons q qs =>
      obtain ⟨k, v⟩ := p
      obtain ⟨k', v'⟩ := q
      rw [Ex.sameEntries, Bool.and_eq_true, ih (fun x y hx => h x y (by simp [hx])) qs, Ex.sameEntry, Bool.and_eq_true,
        (h k v (by simp) k').1, (h k v (by simp) v').2]
      simp

theorem same_iff (a : Ex) : ∀ b, a.same b = true ↔ a = b := by
  induction a using Ex.parts with
  | h a ih =>
  intro b
  cases a with
  | aggregation k e ds =>
    cases b <;> simp [Ex.same]
    rename_i k' e' ds'
    rw [ih e .aggregated, sameAll_iff fun a ha => ih a (.distinct ha)]
    simp [and_assoc]
  | arithmetic o l r =>
    cases b <;> simp [Ex.same]
    rw [ih l .left, ih r .right]
    simp [and_assoc]
  | atom t es => cases b <;> simp [Ex.same]; rw [sameAll_iff fun a ha => ih a (.atom ha)]; simp
  | formatString fs => cases b <;> simp [Ex.same]; rw [samePieces_iff fun a ha => ih a (.piece ha)]
  | map t kvs =>
    cases b <;> simp [Ex.same]
    rw [sameEntries_iff fun k v h c => ⟨ih k (.key h) c, ih v (.value h) c⟩]
    simp
  | negation e => cases b <;> simp [Ex.same]; rw [ih e .negation]
  | operation k es => cases b <;> simp [Ex.same]; rw [sameAll_iff fun a ha => ih a (.operation ha)]; simp
  | parenthesized e => cases b <;> simp [Ex.same]; rw [ih e .parenthesized]
  | tuple es => cases b <;> simp [Ex.same]; rw [sameAll_iff fun a ha => ih a (.tuple ha)]
  | _ => cases b <;> simp [Ex.same]

instance : DecidableEq Ex := fun a b => decidable_of_iff _ (same_iff a b)

deriving instance DecidableEq for Guard
deriving instance DecidableEq for RuleAst
deriving instance DecidableEq for DirectiveAst
deriving instance DecidableEq for KindAst
deriving instance DecidableEq for StmtAst
deriving instance DecidableEq for ProgramAst

end Verif.Parse
