import Verif.ParseAst

/-!
# What is written: the grammar of the rule language

This file says, without any parsing function, which texts are a way of writing which syntax tree.  It
is an ordinary context free grammar: one rule per construct, the usual two levels of left associative
operators, arbitrary white space and comments between the tokens.  `Written (.expr e) s` reads "`s` is
a way of writing the expression `e`".  The parser is proved to agree with it in `Verif.PropParse`.
-/
namespace Verif.Parse

/-- A name: a letter followed by letters, digits, underscores and percent signs. -/
def IsName (n : Str) : Prop :=
  ∃ (c : Char) (r : Str), n = c :: r ∧ c.isAlpha = true ∧
    ∀ d ∈ r, d.isAlphanum = true ∨ d = '_' ∨ d = '%'

/-- A nonempty sequence of decimal digits. -/
def IsDigits (n : Str) : Prop := n ≠ [] ∧ ∀ d ∈ n, d.isDigit = true

/-- `t` does not occur in `s`. -/
def Absent (t s : Str) : Prop := ∀ a b : Str, s ≠ a ++ t ++ b

/-- The end of a line. -/
def Eol (s : Str) : Prop := s = ['\n'] ∨ s = ['\r', '\n']

/-- White space and comments.  A line comment starts with `%` (but not with exactly three of them,
which start a documentation comment) and goes to the end of the line; a closed comment goes from `/*`
to the first `*/`. -/
inductive Ws : Str → Prop where
  | nil : Ws []
  | space {c : Char} {w : Str} : c = ' ' ∨ c = '\t' ∨ c = '\r' ∨ c = '\n' → Ws w → Ws (c :: w)
  | line {b eol w : Str} : (∀ d ∈ b, d ≠ '\r' ∧ d ≠ '\n') →
      ¬ ((['%', '%'] <+: b) ∧ ¬ (['%', '%', '%'] <+: b)) → Eol eol → Ws w → Ws ('%' :: b ++ (eol ++ w))
  | closed {b w : Str} : Absent ['*', '/'] (b ++ ['*']) → Ws w →
      Ws ('/' :: '*' :: b ++ '*' :: '/' :: w)

/-- White space after an expression: a line comment must not follow immediately, because a percent
sign can be part of a name. -/
def Gap (w : Str) : Prop := Ws w ∧ w.head? ≠ some '%'

/-- The ways of writing a predicate, function or constant name. -/
inductive TagText : Tag → Str → Prop where
  | plain {n : Str} : IsName n → TagText (.plain n) n
  | prefixed {p n : Str} : p = [] ∨ IsName p → IsName n → TagText (.prefixed p n) (p ++ ':' :: n)
  | iri {s : Str} : s ≠ [] → (∀ d ∈ s, d ≠ '>' ∧ d ≠ ' ' ∧ d ≠ '\n') →
      TagText (.iri s) ('<' :: s ++ ['>'])

/-- The ways of writing a sign: nothing or `+`, or `-`. -/
def SignText (minus : Bool) (s : Str) : Prop :=
  if minus then s = ['-'] else s = [] ∨ s = ['+']

/-- The ways of writing the fraction of a number. -/
def FracText (f : Option Str) (s : Str) : Prop :=
  match f with
  | none => s = []
  | some d => IsDigits d ∧ s = '.' :: d

/-- The ways of writing the exponent of a number. -/
def ExpText (e : Option (Bool × Str)) (s : Str) : Prop :=
  match e with
  | none => s = []
  | some (m, d) => IsDigits d ∧ ∃ (c : Char) (sg : Str), (c = 'e' ∨ c = 'E') ∧ SignText m sg ∧
      s = c :: sg ++ d

/-- The ways of writing the type marker of a number. -/
def MarkerText (m : Option Bool) (s : Str) : Prop :=
  match m with
  | none => s = []
  | some false => s = ['f']
  | some true => s = ['d']

/-- The digits of a number with the given base. -/
def EncDigit (e : Enc) (c : Char) : Prop :=
  match e with
  | .bin => c ∈ "01".toList
  | .oct => c ∈ "01234567".toList
  | .hex => c ∈ "0123456789abcdefABCDEF".toList

/-- The marker of a number with the given base. -/
def Enc.mark : Enc → Char
  | .bin => 'b'
  | .oct => 'o'
  | .hex => 'x'

/-- The sign of a variable of the given kind. -/
def VarKind.mark : VarKind → Char
  | .universal => '?'
  | .existential => '!'
  | .global => '$'

/-- The ways of writing a language tag. -/
def LangText (l : Option Str) (s : Str) : Prop :=
  match l with
  | none => s = []
  | some n => IsName n ∧ s = '@' :: n

/-- The ways of writing an expression that has no subexpressions. -/
inductive BasicText : Ex → Str → Prop where
  | blank {n : Str} : IsName n ∨ IsDigits n → BasicText (.blank n) ('_' :: ':' :: n)
  | true : BasicText (.boolean true) "true".toList
  | false : BasicText (.boolean false) "false".toList
  | constant {t : Tag} {s : Str} : TagText t s → ¬ "true".toList <+: s → ¬ "false".toList <+: s →
      BasicText (.constant t) s
  | encoded {e : Enc} {ds : Str} : ds ≠ [] → (∀ d ∈ ds, EncDigit e d) →
      BasicText (.encoded e ds) ('0' :: e.mark :: ds)
  | number {n : Num} {sg fr ex mk : Str} : SignText n.neg sg → IsDigits n.int → FracText n.frac fr →
      ExpText n.exp ex → MarkerText n.marker mk →
      BasicText (.number n) (sg ++ (n.int ++ (fr ++ (ex ++ mk))))
  | rdf {c ts : Str} {t : Tag} : c ≠ [] → '"' ∉ c → TagText t ts →
      BasicText (.rdf c t) ('"' :: c ++ '"' :: '^' :: '^' :: ts)
  | string {c ls : Str} {l : Option Str} : '"' ∉ c → LangText l ls →
      BasicText (.string c l) ('"' :: c ++ '"' :: ls)
  | multiline {c ls : Str} {l : Option Str} : Absent ['"', '"', '"'] (c ++ ['"', '"']) →
      LangText l ls →
      BasicText (.string c l) ('"' :: '"' :: '"' :: c ++ '"' :: '"' :: '"' :: ls)
  | variable {k : VarKind} {n : Str} : IsName n → BasicText (.variable k n) (k.mark :: n)
  | anonymous : BasicText .anonymous ['_']

/-- An arithmetic expression. -/
def Ex.IsArith (e : Ex) : Prop := ∃ (o : AOp) (l r : Ex), e = .arithmetic o l r

/-- Equal up to the case of letters. -/
def SameName (a b : Str) : Prop := a.map Char.toLower = b.map Char.toLower

/-- The name is not that of a builtin function. -/
def Tag.NotBuiltin (t : Tag) : Prop := ∀ n : Str, t = .plain n → ∀ k ∈ opTable, ¬ SameName n k

/-- The symbol of an arithmetic operator. -/
def AOp.mark : AOp → Char
  | .add => '+'
  | .sub => '-'
  | .mul => '*'
  | .div => '/'

/-- What a text can be a writing of. -/
inductive Cat where
  /-- an expression with its own brackets: atom, function call, aggregate, map, tuple, format string -/
  | complex (e : Ex)
  /-- an expression that is not arithmetic, negated or in parentheses -/
  | simple (e : Ex)
  | factor (e : Ex)
  | product (e : Ex)
  | sum (e : Ex)
  /-- a negated expression -/
  | negated (e : Ex)
  | expr (e : Ex)
  /-- a nonempty list separated by commas -/
  | list (es : List Ex)
  /-- a list that may be empty or have a trailing comma -/
  | seq (es : List Ex)
  | pairs (kvs : List (Ex × Ex))
  | pairSeq (kvs : List (Ex × Ex))
  /-- the inside of a format string; `m` for the one in triple quotes -/
  | elements (m : Bool) (l : List (FEl Ex))

/-- The list does not start with a text element. -/
def NoText (l : List (FEl Ex)) : Prop := ∀ s, l.head? ≠ some (.text s)

/-- `Written c s`: the text `s` is a way of writing `c`. -/
inductive Written : Cat → Str → Prop where
  -- expressions with their own brackets
  | aggregation {k nm w s w' : Str} {e : Ex} : k ∈ aggTable → SameName nm k → Ws w →
      Written (.expr e) s → Gap w' →
      Written (.complex (.aggregation (some k) e [])) ('#' :: nm ++ '(' :: (w ++ (s ++ (w' ++ [')']))))
  | aggregationDistinct {k nm w s w1 w2 s' w' : Str} {e : Ex} {es : List Ex} : k ∈ aggTable →
      SameName nm k → Ws w → Written (.expr e) s → Gap w1 → Ws w2 → Written (.list es) s' → Gap w' →
      Written (.complex (.aggregation (some k) e es))
        ('#' :: nm ++ '(' :: (w ++ (s ++ (w1 ++ ',' :: (w2 ++ (s' ++ (w' ++ [')'])))))))
  | operation {k nm w s w' : Str} {es : List Ex} : k ∈ opTable → SameName nm k → Ws w →
      Written (.seq es) s → Gap w' →
      Written (.complex (.operation k es)) (nm ++ '(' :: (w ++ (s ++ (w' ++ [')']))))
  | atom {t : Tag} {ts w s w' : Str} {es : List Ex} : TagText t ts → t.NotBuiltin → Ws w →
      Written (.list es) s → Gap w' →
      Written (.complex (.atom t es)) (ts ++ '(' :: (w ++ (s ++ (w' ++ [')']))))
  | map {w s w' : Str} {kvs : List (Ex × Ex)} : Ws w → Written (.pairSeq kvs) s → Gap w' →
      Written (.complex (.map none kvs)) ('{' :: (w ++ (s ++ (w' ++ ['}']))))
  | taggedMap {t : Tag} {ts w0 w s w' : Str} {kvs : List (Ex × Ex)} : TagText t ts → Gap w0 → Ws w →
      Written (.pairSeq kvs) s → Gap w' →
      Written (.complex (.map (some t) kvs)) (ts ++ (w0 ++ '{' :: (w ++ (s ++ (w' ++ ['}'])))))
  | tuple {w s w1 w2 s' w' : Str} {e : Ex} {es : List Ex} : Ws w → Written (.expr e) s → Gap w1 →
      Ws w2 → Written (.seq es) s' → Gap w' →
      Written (.complex (.tuple (e :: es)))
        ('(' :: (w ++ (s ++ (w1 ++ ',' :: (w2 ++ (s' ++ (w' ++ [')'])))))))
  | formatString {s : Str} {l : List (FEl Ex)} : Written (.elements false l) s →
      Written (.complex (.formatString l)) ('f' :: '"' :: s ++ ['"'])
  | multilineFormatString {s : Str} {l : List (FEl Ex)} : Written (.elements true l) s →
      Written (.complex (.formatString l)) ('f' :: '"' :: '"' :: '"' :: s ++ ['"', '"', '"'])
  -- the inside of format strings
  | noElements {m : Bool} : Written (.elements m []) []
  | text {m : Bool} {c s : Str} {l : List (FEl Ex)} : c ≠ [] → '{' ∉ c → '}' ∉ c →
      (m = false → '"' ∉ c) → (m = true → Absent ['"', '"', '"'] c) →
      (m = true → l = [] → Absent ['"', '"', '"'] (c ++ ['"', '"'])) → NoText l → Written (.elements m l) s → Written (.elements m (.text c :: l)) (c ++ s)
  | openBrace {m : Bool} {s : Str} {l : List (FEl Ex)} : Written (.elements m l) s →
      Written (.elements m (.openBrace :: l)) ('{' :: '{' :: s)
  | closeBrace {m : Bool} {s : Str} {l : List (FEl Ex)} : Written (.elements m l) s →
      Written (.elements m (.closeBrace :: l)) ('}' :: '}' :: s)
  | element {m : Bool} {t s : Str} {e : Ex} {l : List (FEl Ex)} : Written (.expr e) t →
      t.head? ≠ some '{' → Written (.elements m l) s →
      Written (.elements m (.expr e :: l)) ('{' :: (t ++ '}' :: s))
  -- expressions
  | basic {e : Ex} {s : Str} : BasicText e s → Written (.simple e) s
  | complex {e : Ex} {s : Str} : Written (.complex e) s → Written (.simple e) s
  | factor {e : Ex} {s : Str} : Written (.simple e) s → Written (.factor e) s
  | parenSimple {e : Ex} {w s w' : Str} : Ws w → Written (.simple e) s → Gap w' →
      Written (.factor (.parenthesized e)) ('(' :: (w ++ (s ++ (w' ++ [')']))))
  | parenArith {e : Ex} {w s w' : Str} : Ws w → Written (.sum e) s → e.IsArith → Gap w' →
      Written (.factor e) ('(' :: (w ++ (s ++ (w' ++ [')']))))
  | product {e : Ex} {s : Str} : Written (.factor e) s → Written (.product e) s
  | mul {l r : Ex} {o : AOp} {s w w' s' : Str} : o = .mul ∨ o = .div → Written (.product l) s →
      Gap w → Ws w' → Written (.factor r) s' →
      Written (.product (.arithmetic o l r)) (s ++ (w ++ o.mark :: (w' ++ s')))
  | sum {e : Ex} {s : Str} : Written (.product e) s → Written (.sum e) s
  | add {l r : Ex} {o : AOp} {s w w' s' : Str} : o = .add ∨ o = .sub → Written (.sum l) s →
      Gap w → Ws w' → Written (.product r) s' →
      Written (.sum (.arithmetic o l r)) (s ++ (w ++ o.mark :: (w' ++ s')))
  | negation {e : Ex} {w s : Str} : Ws w → Written (.expr e) s →
      Written (.negated (.negation e)) ('~' :: (w ++ s))
  | simpleExpr {e : Ex} {s : Str} : Written (.simple e) s → Written (.expr e) s
  | negatedExpr {e : Ex} {s : Str} : Written (.negated e) s → Written (.expr e) s
  | arithExpr {e : Ex} {s : Str} : Written (.sum e) s → e.IsArith → Written (.expr e) s
  | parenExpr {e : Ex} {w s w' : Str} : Ws w → Written (.expr e) s → ¬ e.IsArith → Gap w' →
      Written (.expr (.parenthesized e)) ('(' :: (w ++ (s ++ (w' ++ [')']))))
  -- lists
  | one {e : Ex} {s : Str} : Written (.expr e) s → Written (.list [e]) s
  | more {e : Ex} {es : List Ex} {s w w' s' : Str} : Written (.expr e) s → Gap w → Ws w' →
      Written (.list es) s' → Written (.list (e :: es)) (s ++ (w ++ ',' :: (w' ++ s')))
  | noSeq : Written (.seq []) []
  | listSeq {es : List Ex} {s : Str} : Written (.list es) s → Written (.seq es) s
  | trailing {es : List Ex} {s w : Str} : Written (.list es) s → Gap w →
      Written (.seq es) (s ++ (w ++ [',']))
  | onePair {k v : Ex} {s w w' s' : Str} : Written (.expr k) s → Gap w → Ws w' →
      Written (.expr v) s' → Written (.pairs [(k, v)]) (s ++ (w ++ '=' :: (w' ++ s')))
  | morePairs {k v : Ex} {kvs : List (Ex × Ex)} {s w w' s' w1 w2 s'' : Str} : Written (.expr k) s →
      Gap w → Ws w' → Written (.expr v) s' → Gap w1 → Ws w2 → Written (.pairs kvs) s'' →
      Written (.pairs ((k, v) :: kvs))
        (s ++ (w ++ '=' :: (w' ++ (s' ++ (w1 ++ ',' :: (w2 ++ s''))))))
  | noPairs : Written (.pairSeq []) []
  | pairSeq {kvs : List (Ex × Ex)} {s : Str} : Written (.pairs kvs) s → Written (.pairSeq kvs) s
  | trailingPairs {kvs : List (Ex × Ex)} {s w : Str} : Written (.pairs kvs) s → Gap w →
      Written (.pairSeq kvs) (s ++ (w ++ [',']))

/-- What may follow an expression: the end of the text, or, after white space, a closing bracket, a
comma, a comparison, the arrow of a rule, or the dot at the end of a statement. -/
def Stops (r : Str) : Prop :=
  r = [] ∨ ∃ (w : Str) (c : Char) (r' : Str), r = w ++ c :: r' ∧ Gap w ∧
    (c ∈ [')', ',', '}', '=', '!', '<', '>', ']'] ∨ (c = ':' ∧ r'.head? = some '-') ∨
      (c = '.' ∧ ∀ d ∈ r'.head?, d.isDigit = false))

end Verif.Parse
