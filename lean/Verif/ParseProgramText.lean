import Verif.ParseGrammar
import Verif.ParseStatement

/-!
# What is written: rules, facts, directives and programs

Continuation of `Verif.ParseGrammar`: which texts are a way of writing which statement and which
program.  No parsing function is used.
-/
namespace Verif.Parse

/-- The symbol of a comparison. -/
def IOp.text : IOp → Str
  | .eq => ['=']
  | .ne => ['!', '=']
  | .ge => ['>', '=']
  | .gt => ['>']
  | .le => ['<', '=']
  | .lt => ['<']

/-- The ways of writing a literal of a rule: an atom or another expression with its own brackets, a
negation, or a comparison. -/
inductive GuardText : Guard → Str → Prop where
  | complex {e : Ex} {s : Str} : Written (.complex e) s → GuardText (.expression e) s
  | negated {e : Ex} {s : Str} : Written (.negated e) s → GuardText (.expression e) s
  | compare {o : IOp} {l r : Ex} {s w w' s' : Str} : Written (.expr l) s → Gap w → Ws w' →
      Written (.expr r) s' → GuardText (.compare o l r) (s ++ (w ++ (o.text ++ (w' ++ s'))))

/-- A nonempty list of things separated by commas. -/
inductive ListText (El : α → Str → Prop) : List α → Str → Prop where
  | one {a : α} {s : Str} : El a s → ListText El [a] s
  | more {a : α} {as : List α} {s w w' s' : Str} : El a s → Gap w → Ws w' → ListText El as s' →
      ListText El (a :: as) (s ++ (w ++ ',' :: (w' ++ s')))

/-- A nonempty list, possibly with a trailing comma. -/
inductive ListText1 (El : α → Str → Prop) : List α → Str → Prop where
  | list {as : List α} {s : Str} : ListText El as s → ListText1 El as s
  | trailing {as : List α} {s w : Str} : ListText El as s → Gap w →
      ListText1 El as (s ++ (w ++ [',']))

/-- A list that may be empty. -/
def SeqText (El : α → Str → Prop) (as : List α) (s : Str) : Prop :=
  (as = [] ∧ s = []) ∨ ListText1 El as s

/-- The ways of writing a rule: head, arrow, body. -/
inductive RuleText : RuleAst → Str → Prop where
  | rule {h b : List Guard} {s w w' s' : Str} : ListText1 GuardText h s → Gap w → Ws w' →
      SeqText GuardText b s' → RuleText ⟨h, b⟩ (s ++ (w ++ ':' :: '-' :: (w' ++ s')))
  | noHead {b : List Guard} {w' s' : Str} : Ws w' → SeqText GuardText b s' →
      RuleText ⟨[], b⟩ (':' :: '-' :: (w' ++ s'))

/-- The ways of writing a full IRI. -/
def IriText (i s : Str) : Prop :=
  i ≠ [] ∧ (∀ d ∈ i, d ≠ '>' ∧ d ≠ ' ' ∧ d ≠ '\n') ∧ s = '<' :: i ++ ['>']

/-- The ways of writing a parameter in a declaration: a name or `_`, possibly with a type. -/
inductive NameTypeText : Option Str × Option IoType → Str → Prop where
  | unnamed : NameTypeText (none, none) ['_']
  | named {n : Str} : IsName n → NameTypeText (some n, none) n
  | unnamedTyped {t : IoType} {w w' : Str} : Ws w → Ws w' →
      NameTypeText (none, some t) ('_' :: (w ++ ':' :: (w' ++ t.text)))
  | namedTyped {n : Str} {t : IoType} {w w' : Str} : IsName n → Gap w → Ws w' →
      NameTypeText (some n, some t) (n ++ (w ++ ':' :: (w' ++ t.text)))

/-- The ways of writing the guards of an import or export. -/
inductive GuardsText : Option (List Guard) → Str → Prop where
  | none : GuardsText none []
  | some {gs : List Guard} {w w' s : Str} : Gap w → Ws w' → SeqText GuardText gs s →
      GuardsText (some gs) (w ++ ',' :: (w' ++ s))

/-- The ways of writing an import or export: predicate, arrow, instructions, guards. -/
inductive IoText : Tag → Ex → Option (List Guard) → Str → Prop where
  | mk {t : Tag} {m : Option Tag} {kvs : List (Ex × Ex)} {gs : Option (List Guard)}
      {ts w w' s s' : Str} : TagText t ts → Gap w → Ws w' → Written (.complex (.map m kvs)) s →
      GuardsText gs s' → IoText t (.map m kvs) gs (ts ++ (w ++ ':' :: '-' :: (w' ++ (s ++ s'))))

/-- The ways of writing a directive.  The keyword is followed by white space. -/
inductive DirectiveText : DirectiveAst → Str → Prop where
  | base {i w s : Str} : Gap w → w ≠ [] → IriText i s →
      DirectiveText (.base i) ('@' :: ("base".toList ++ (w ++ s)))
  | declare {t : Tag} {ps : List (Option Str × Option IoType)} {w ts w0 w1 s w2 : Str} : Gap w →
      w ≠ [] → TagText t ts → Gap w0 → Ws w1 → SeqText NameTypeText ps s → Gap w2 →
      DirectiveText (.declare t ps)
        ('@' :: ("declare".toList ++ (w ++ (ts ++ (w0 ++ '(' :: (w1 ++ (s ++ (w2 ++ [')']))))))))
  | exportTo {t : Tag} {m : Ex} {gs : Option (List Guard)} {w s : Str} : Gap w → w ≠ [] →
      IoText t m gs s → DirectiveText (.exportTo t m gs) ('@' :: ("export".toList ++ (w ++ s)))
  | importFrom {t : Tag} {m : Ex} {gs : Option (List Guard)} {w s : Str} : Gap w → w ≠ [] →
      IoText t m gs s → DirectiveText (.importFrom t m gs) ('@' :: ("import".toList ++ (w ++ s)))
  | output {ts : List Tag} {w s : Str} : Gap w → w ≠ [] → SeqText TagText ts s →
      DirectiveText (.output ts) ('@' :: ("output".toList ++ (w ++ s)))
  | prefixIs {p i w w1 w2 s : Str} : Gap w → w ≠ [] → p = [] ∨ IsName p → Gap w1 → Ws w2 →
      IriText i s →
      DirectiveText (.prefixIs p i) ('@' :: ("prefix".toList ++ (w ++ (p ++ (w1 ++ ':' :: (w2 ++ s))))))
  | parameter {k : VarKind} {n w : Str} : Gap w → w ≠ [] → IsName n →
      DirectiveText (.parameter (.variable k n) none) ('@' :: ("parameter".toList ++ (w ++ k.mark :: n)))
  | parameterValue {k : VarKind} {n w w1 w2 s : Str} {e : Ex} : Gap w → w ≠ [] → IsName n → Gap w1 →
      Ws w2 → Written (.expr e) s →
      DirectiveText (.parameter (.variable k n) (some e))
        ('@' :: ("parameter".toList ++ (w ++ k.mark :: (n ++ (w1 ++ '=' :: (w2 ++ s))))))

/-- The ways of writing a statement, without comments, attributes and the dot. -/
inductive KindText : KindAst → Str → Prop where
  | fact {g : Guard} {s : Str} : GuardText g s → KindText (.fact g) s
  | rule {r : RuleAst} {s : Str} : RuleText r s → KindText (.rule r) s
  | directive {d : DirectiveAst} {s : Str} : DirectiveText d s → KindText (.directive d) s

/-- The ways of writing a list of attributes: each is an atom between `#[` and `]`. -/
inductive AttributesText : List Ex → Str → Prop where
  | nil : AttributesText [] []
  | cons {t : Tag} {es : List Ex} {as : List Ex} {w s w1 w2 s' : Str} : Ws w →
      Written (.complex (.atom t es)) s → Gap w1 → Ws w2 → AttributesText as s' →
      AttributesText (.atom t es :: as) ('#' :: '[' :: (w ++ (s ++ (w1 ++ ']' :: (w2 ++ s')))))

/-- Blanks and tabs. -/
def Blanks (s : Str) : Prop := ∀ c ∈ s, c = ' ' ∨ c = '\t'

/-- Comment lines with the given mark, and their contents. -/
inductive CommentLines (mark : Str) : List Str → Str → Prop where
  | one {b c eol : Str} : Blanks b → (∀ d ∈ c, d ≠ '\r' ∧ d ≠ '\n') → Eol eol →
      CommentLines mark [c] (b ++ (mark ++ (c ++ eol)))
  | more {b c eol s : Str} {cs : List Str} : Blanks b → (∀ d ∈ c, d ≠ '\r' ∧ d ≠ '\n') → Eol eol →
      CommentLines mark cs s → CommentLines mark (c :: cs) (b ++ (mark ++ (c ++ (eol ++ s))))

/-- The text is not another comment line with the given mark. -/
def NoLine (mark s : Str) : Prop := ∀ b t : Str, Blanks b → s ≠ b ++ (mark ++ t)

/-- The ways of writing the documentation of a statement; the first line starts with exactly three
percent signs. -/
inductive DocText : Option (List Str) → Str → Prop where
  | none : DocText none []
  | some {c : Str} {cs : List Str} {s w : Str} : CommentLines ['%', '%', '%'] (c :: cs) s →
      ['%', '%', '%'] <+: s → c.head? ≠ some '%' → Ws w → NoLine ['%', '%', '%'] w →
      DocText (some (c :: cs)) (s ++ w)

/-- The ways of writing a statement: documentation, attributes, the statement proper, a dot. -/
inductive StmtText : StmtAst → Str → Prop where
  | mk {d : Option (List Str)} {as : List Ex} {k : KindAst} {s s1 s2 w : Str} : DocText d s →
      AttributesText as s1 → KindText k s2 → Gap w →
      StmtText ⟨d, as, k⟩ (s ++ (s1 ++ (s2 ++ (w ++ ['.']))))

/-- The ways of writing a list of statements, each followed by white space; the dot of a statement is
not directly followed by a digit. -/
inductive StmtsText : List StmtAst → Str → Prop where
  | nil : StmtsText [] []
  | cons {a : StmtAst} {as : List StmtAst} {s w s' : Str} : StmtText a s → Ws w → StmtsText as s' →
      (∀ d ∈ (w ++ s').head?, d.isDigit = false) → StmtsText (a :: as) (s ++ (w ++ s'))

/-- The ways of writing a program: comment lines marked `%!` at the top, then statements, with white
space and comments in between. -/
inductive ProgramText : ProgramAst → Str → Prop where
  | plain {as : List StmtAst} {w s : Str} : Ws w → StmtsText as s → NoLine ['%', '!'] (w ++ s) →
      ProgramText ⟨none, as⟩ (w ++ s)
  | comment {cs : List Str} {as : List StmtAst} {t w s : Str} : CommentLines ['%', '!'] cs t → Ws w →
      StmtsText as s → NoLine ['%', '!'] (w ++ s) → ProgramText ⟨some cs, as⟩ (t ++ (w ++ s))

end Verif.Parse
