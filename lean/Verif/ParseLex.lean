import Verif.ParseExpr
import Verif.ParseGrammar

/-!
# Lexical facts: what the tokens do with what is written
-/
namespace Verif.Parse

set_option linter.unusedSimpArgs false

/-! ## Combinators -/

section
variable {α β : Type}

theorem andThen_ok {p : P α} {f : α → P β} {s r : Str} {a : α} (h : p s = .ok a r) :
    andThen p f s = f a r := by simp [andThen, h]

theorem andThen_err {p : P α} {f : α → P β} {s : Str} (h : p s = .err) :
    andThen p f s = .err := by simp [andThen, h]

theorem pmap_ok {p : P α} {f : α → β} {s r : Str} {a : α} (h : p s = .ok a r) :
    pmap f p s = .ok (f a) r := by simp [pmap, h]

theorem pmap_err {p : P α} {f : α → β} {s : Str} (h : p s = .err) : pmap f p s = .err := by
  simp [pmap, h]

theorem alt_ok {p q : P α} {s r : Str} {a : α} (h : p s = .ok a r) : alt p q s = .ok a r := by
  simp [alt, h]

theorem alt_err {p q : P α} {s : Str} (h : p s = .err) : alt p q s = q s := by simp [alt, h]

theorem opt_ok {p : P α} {s r : Str} {a : α} (h : p s = .ok a r) : opt p s = .ok (some a) r := by
  simp [opt, h]

theorem opt_err {p : P α} {s : Str} (h : p s = .err) : opt p s = .ok none s := by simp [opt, h]

/-- Running `p` repeatedly from `s` gives the results `l` and ends at `r`. -/
inductive ManySteps (p : P α) : Str → List α → Str → Prop where
  | nil {s : Str} : ManySteps p s [] s
  | cons {s t r : Str} {a : α} {l : List α} : p s = .ok a t → t.length < s.length →
      ManySteps p t l r → ManySteps p s (a :: l) r

theorem ManySteps.snoc {p : P α} {s t r : Str} {l : List α} {a : α} (h : ManySteps p s l t)
    (ha : p t = .ok a r) (hl : r.length < t.length) : ManySteps p s (l ++ [a]) r := by
  induction h with
  | nil => exact .cons ha hl .nil
  | cons h1 h2 _ ih => exact .cons h1 h2 (ih ha hl)

theorem ManySteps.length {p : P α} {s r : Str} {l : List α} (h : ManySteps p s l r) :
    r.length ≤ s.length := by
  induction h with
  | nil => exact Nat.le_refl _
  | cons _ h2 _ ih => omega

theorem ManySteps.many0Aux {p : P α} {s r : Str} {l : List α} (h : ManySteps p s l r)
    (he : p r = .err) : ∀ n, s.length < n → many0Aux p n s = .ok l r := by
  induction h with
  | @nil s =>
    intro n hn
    obtain ⟨m, rfl⟩ : ∃ m, n = m + 1 := ⟨n - 1, by omega⟩
    simp [Verif.Parse.many0Aux, he]
  | @cons s t r a l h1 h2 h3 ih =>
    intro n hn
    obtain ⟨m, rfl⟩ : ∃ m, n = m + 1 := ⟨n - 1, by omega⟩
    have hne : ¬ t.length = s.length := by omega
    simp [Verif.Parse.many0Aux, h1, hne, ih he m (by omega)]

theorem ManySteps.many0 {p : P α} {s r : Str} {l : List α} (h : ManySteps p s l r)
    (he : p r = .err) : many0 p s = .ok l r := h.many0Aux he _ (by omega)

theorem many0_nil {p : P α} {s : Str} (he : p s = .err) : many0 p s = .ok [] s :=
  (ManySteps.nil (p := p)).many0 he

end

theorem mem_takeWhile {f : Char → Bool} {l : Str} {c : Char} (h : c ∈ l.takeWhile f) : f c = true := by
  induction l with
  | nil => simp at h
  | cons d l ih =>
    by_cases hd : f d = true
    · rw [List.takeWhile_cons_of_pos hd] at h
      rcases List.mem_cons.mp h with rfl | h
      · exact hd
      · exact ih h
    · rw [List.takeWhile_cons_of_neg hd] at h
      simp at h

/-! ## Tags and runs of characters -/

theorem tag_append (t r : Str) : tag t (t ++ r) = .ok () r := by
  simp [tag]

theorem tag_cons (c : Char) (t r : Str) : tag (c :: t) (c :: r) =
    match tag t r with | .ok a r' => .ok a r' | .err => .err | .fail => .fail := by
  unfold tag
  by_cases h : t.isPrefixOf r
  · simp [h, List.isPrefixOf]
  · simp [h, List.isPrefixOf]

theorem tag1 (c : Char) (r : Str) : tag [c] (c :: r) = .ok () r := tag_append [c] r

theorem tag_ne {a c : Char} (t r : Str) (h : a ≠ c) : tag (a :: t) (c :: r) = .err := by
  simp [tag, List.isPrefixOf, h]

theorem tag_nil_err (a : Char) (t : Str) : tag (a :: t) [] = .err := by
  simp [tag, List.isPrefixOf]

theorem tag_head {a : Char} {t r : Str} (h : r.head? ≠ some a) : tag (a :: t) r = .err := by
  cases r with
  | nil => exact tag_nil_err a t
  | cons c r => exact tag_ne t r (by simpa [eq_comm] using h)

theorem takeWhile_append_stop {f : Char → Bool} {a r : Str} (ha : ∀ c ∈ a, f c = true)
    (hr : ∀ c ∈ r.head?, f c = false) :
    (a ++ r).takeWhile f = a ∧ (a ++ r).dropWhile f = r := by
  induction a with
  | nil =>
    cases r with
    | nil => simp
    | cons c r => simp [hr c (by simp)]
  | cons c a ih =>
    have hc := ha c (by simp)
    obtain ⟨i1, i2⟩ := ih (fun d hd => ha d (by simp [hd]))
    constructor
    · simp [hc, i1]
    · simp [hc, i2]

theorem takeWhile1_append {f : Char → Bool} {a r : Str} (hne : a ≠ []) (ha : ∀ c ∈ a, f c = true)
    (hr : ∀ c ∈ r.head?, f c = false) : takeWhile1 f (a ++ r) = .ok a r := by
  obtain ⟨h1, h2⟩ := takeWhile_append_stop ha hr
  simp [takeWhile1, h1, h2, hne]

theorem takeWhile1_err {f : Char → Bool} {r : Str} (hr : ∀ c ∈ r.head?, f c = false) :
    takeWhile1 f r = .err := by
  obtain ⟨h1, _⟩ := takeWhile_append_stop (f := f) (a := []) (r := r) (by simp) hr
  simp only [List.nil_append] at h1
  simp [takeWhile1, h1]

/-! ## Characters -/

theorem isAlpha_eq (c : Char) : isAlpha c = c.isAlpha := by
  rw [Bool.eq_iff_iff]
  simp only [isAlpha, Char.isAlpha, Char.isUpper, Char.isLower, Bool.or_eq_true, Bool.and_eq_true,
    decide_eq_true_eq, Char.le_def]
  constructor
  · rintro (⟨h1, h2⟩ | ⟨h1, h2⟩)
    · exact Or.inr ⟨h1, h2⟩
    · exact Or.inl ⟨h1, h2⟩
  · rintro (⟨h1, h2⟩ | ⟨h1, h2⟩)
    · exact Or.inr ⟨h1, h2⟩
    · exact Or.inl ⟨h1, h2⟩

theorem isDigit_eq (c : Char) : isDigit c = c.isDigit := by
  rw [Bool.eq_iff_iff]
  simp only [isDigit, Char.isDigit, Bool.and_eq_true, decide_eq_true_eq, Char.le_def]
  try exact Iff.rfl

theorem lower_eq (c : Char) : lower c = c.toLower := by
  unfold lower Char.toLower
  by_cases h : 'A' ≤ c ∧ c ≤ 'Z'
  · have h' : (decide ('A' ≤ c) && decide (c ≤ 'Z')) = true := by simp [h]
    rw [if_pos h']
    have hu : c.val ≥ 'A'.val ∧ c.val ≤ 'Z'.val := ⟨h.1, h.2⟩
    rw [dif_pos hu]
    apply Char.ext
    have h3 : c.val.toNat ≤ 90 := by
      have := hu.2
      exact UInt32.le_iff_toNat_le.mp this
    have h4 : c.toNat + 32 < 55296 := by
      have : c.toNat = c.val.toNat := rfl
      omega
    have h5 : (Char.ofNat (c.toNat + 32)).val.toNat = c.toNat + 32 := by
      have hv : (c.toNat + 32).isValidChar := Or.inl h4
      rw [Char.ofNat, dif_pos hv]
      rfl
    apply UInt32.toNat.inj
    have h6 : (c.val + ('a'.val - 'A'.val)).toNat = c.val.toNat + 32 := by
      have h7 : ('a'.val - 'A'.val) = (32 : UInt32) := by decide
      rw [h7, UInt32.toNat_add]
      have : (32 : UInt32).toNat = 32 := rfl
      rw [this]
      omega
    rw [h5]
    show _ = (c.val + ('a'.val - 'A'.val)).toNat
    rw [h6]
    rfl
  · have h' : ¬ (decide ('A' ≤ c) && decide (c ≤ 'Z')) = true := by simpa using h
    rw [if_neg h']
    have hu : ¬ (c.val ≥ 'A'.val ∧ c.val ≤ 'Z'.val) := fun x => h ⟨x.1, x.2⟩
    rw [dif_neg hu]

theorem nameChar_iff (c : Char) : nameChar c = true ↔ c.isAlphanum = true ∨ c = '_' ∨ c = '%' := by
  simp [nameChar, isAlpha_eq, isDigit_eq, Char.isAlphanum, or_assoc]

theorem nameChar_of_alpha {c : Char} (h : isAlpha c = true) : nameChar c = true := by
  simp [nameChar, h]

theorem IsName.cons {n : Str} (h : IsName n) : ∃ (c : Char) (r : Str), n = c :: r ∧
    isAlpha c = true ∧ ∀ d ∈ n, nameChar d = true := by
  obtain ⟨c, r, rfl, h1, h2⟩ := h
  refine ⟨c, r, rfl, by rw [isAlpha_eq]; exact h1, ?_⟩
  intro d hd
  rcases List.mem_cons.mp hd with rfl | hd
  · exact nameChar_of_alpha (by rw [isAlpha_eq]; exact h1)
  · exact (nameChar_iff d).mpr (h2 d hd)

theorem name_append {n r : Str} (hn : IsName n) (hr : ∀ c ∈ r.head?, nameChar c = false) :
    name (n ++ r) = .ok n r := by
  obtain ⟨c, t, rfl, hc, hall⟩ := hn.cons
  obtain ⟨a, b, hab, ha, hb⟩ : ∃ a b : Str, c :: t = a ++ b ∧ (∀ d ∈ a, isAlpha d = true) ∧
      (∀ d ∈ b.head?, isAlpha d = false) := by
    refine ⟨(c :: t).takeWhile isAlpha, (c :: t).dropWhile isAlpha,
      (List.takeWhile_append_dropWhile).symm, ?_, ?_⟩
    · intro d hd
      exact (mem_takeWhile hd)
    · intro d hd
      have := List.head?_dropWhile_not isAlpha (c :: t)
      rw [Option.mem_def.mp hd] at this
      simpa using this
  have hane : a ≠ [] := by
    rintro rfl
    simp only [List.nil_append] at hab
    subst hab
    have := hb c (by simp)
    rw [hc] at this
    exact Bool.noConfusion this
  rw [hab, List.append_assoc]
  have hbr : ∀ d ∈ (b ++ r).head?, isAlpha d = false := by
    intro d hd
    cases b with
    | nil =>
      simp only [List.nil_append] at hd
      have h1 := hr d hd
      cases h2 : isAlpha d with
      | false => rfl
      | true => rw [nameChar_of_alpha h2] at h1; exact absurd h1 (by decide)
    | cons e b => exact hb d (by simpa using hd)
  have hbn : ∀ d ∈ b, nameChar d = true := fun d hd => hall d (by rw [hab]; simp [hd])
  obtain ⟨g1, g2⟩ := takeWhile_append_stop hbn hr
  rw [name, andThen_ok (takeWhile1_append hane ha hbr)]
  simp [g1, g2]

theorem name_err {r : Str} (hr : ∀ c ∈ r.head?, isAlpha c = false) : name r = .err := by
  rw [name, andThen_err (takeWhile1_err hr)]

theorem digits_append {n r : Str} (hn : IsDigits n) (hr : ∀ c ∈ r.head?, isDigit c = false) :
    digits (n ++ r) = .ok n r :=
  takeWhile1_append hn.1 (fun c hc => by rw [isDigit_eq]; exact hn.2 c hc) hr

theorem isPrefixOf_false {t s : Str} (h : ¬ t <+: s) : t.isPrefixOf s = false := by
  cases h' : t.isPrefixOf s with
  | false => rfl
  | true => exact absurd (List.isPrefixOf_iff_prefix.mp h') h

/-- `take_until` finds the end of a text in which the mark does not occur earlier. -/
theorem takeUntil_append {m : Char} {t c : Str} (r : Str)
    (h : Absent (t ++ [m]) (c ++ t)) :
    takeUntil (t ++ [m]) (c ++ (t ++ m :: r)) = .ok c (t ++ m :: r) := by
  induction c with
  | nil =>
    have hp : (t ++ [m]).isPrefixOf (t ++ m :: r) = true := by
      rw [List.isPrefixOf_iff_prefix]
      exact ⟨r, by simp⟩
    simp only [List.nil_append]
    cases hs : t ++ m :: r with
    | nil => simp at hs
    | cons d s =>
      rw [hs] at hp
      simp [takeUntil, hp]
  | cons d c ih =>
    have hp : ¬ (t ++ [m]) <+: (d :: (c ++ (t ++ m :: r))) := by
      rintro ⟨b, hb⟩
      have hl : (t ++ [m]).length ≤ (d :: c ++ t).length := by simp
      have : (t ++ [m]) <+: (d :: c ++ t) := by
        have h1 : (t ++ [m]) <+: ((d :: c ++ t) ++ (m :: r)) := ⟨b, by simp [hb]⟩
        exact List.prefix_of_prefix_length_le h1 (List.prefix_append _ _) hl
      obtain ⟨b', hb'⟩ := this
      exact h [] b' (by simp [← hb'])
    have hd : Absent (t ++ [m]) (c ++ t) := fun a b hab => h (d :: a) b (by simp [hab])
    rw [List.cons_append, takeUntil, isPrefixOf_false hp]
    simp [ih hd]

/-! ## White space -/

/-- The text does not start with white space or a comment. -/
def NoWs (r : Str) : Prop :=
  ∀ (c : Char) (r' : Str), r = c :: r' → isSpace c = false ∧ c ≠ '%' ∧ (c = '/' → r'.head? ≠ some '*')

theorem NoWs.head {r : Str} (h : NoWs r) : ∀ c ∈ r.head?, isSpace c = false := by
  intro c hc
  cases r with
  | nil => simp at hc
  | cons d r =>
    simp only [List.head?_cons, Option.mem_def, Option.some.injEq] at hc
    subst hc
    exact (h d r rfl).1

theorem wsStep_err {r : Str} (h : NoWs r) : wsStep r = .err := by
  rw [wsStep, alt_err (pmap_err (takeWhile1_err h.head))]
  cases r with
  | nil => rfl
  | cons c r =>
    obtain ⟨h1, h2, h3⟩ := h c r rfl
    have hc : commentMark (c :: r) = .err := by
      have h4 : ¬ ['%', '%', '%', '%'] <+: (c :: r) := by
        rintro ⟨b, hb⟩
        exact h2 (List.cons.inj hb).1.symm
      have h5 : ¬ ['%', '%', '%'] <+: (c :: r) := by
        rintro ⟨b, hb⟩
        exact h2 (List.cons.inj hb).1.symm
      rw [commentMark, isPrefixOf_false h4, isPrefixOf_false h5]
      simp only [Bool.false_eq_true, if_false]
      exact tag_ne _ _ (Ne.symm h2)
    rw [alt_err (by rw [lineComment, andThen_err hc]), closedComment]
    apply andThen_err
    show tag ('/' :: ['*']) (c :: r) = .err
    by_cases hc' : c = '/'
    · subst hc'
      rw [tag_cons, tag_head (h3 rfl)]
    · exact tag_ne _ _ (Ne.symm hc')

theorem Ws.dropSpaces {w : Str} (h : Ws w) : Ws (w.dropWhile isSpace) := by
  induction h with
  | nil => exact .nil
  | @space c w hc hw ih =>
    have : isSpace c = true := by
      rcases hc with rfl | rfl | rfl | rfl <;> rfl
    simpa [this] using ih
  | @line b eol w hb h3 he hw ih =>
    have : isSpace '%' = false := rfl
    simpa [this] using Ws.line hb h3 he hw
  | @closed b w hb hw ih =>
    have : isSpace '/' = false := rfl
    simpa [this] using Ws.closed hb hw

theorem prefix_extend {t b : Str} {c : Char} {s : Str} (hc : c ∉ t) (h : t <+: b ++ c :: s) :
    t <+: b := by
  induction t generalizing b with
  | nil => exact List.nil_prefix
  | cons d t ih =>
    cases b with
    | nil =>
      obtain ⟨x, hx⟩ := h
      simp only [List.nil_append, List.cons_append, List.cons.injEq] at hx
      exact absurd (by simp [hx.1]) hc
    | cons e b =>
      obtain ⟨x, hx⟩ := h
      simp only [List.cons_append, List.cons.injEq] at hx
      obtain ⟨rfl, hx⟩ := hx
      exact List.cons_prefix_cons.mpr ⟨rfl, ih (fun h' => hc (by simp [h'])) ⟨x, hx⟩⟩

theorem commentMark_line {b s : Str} (h3 : ¬ ((['%', '%'] <+: b) ∧ ¬ (['%', '%', '%'] <+: b)))
    {c : Char} (hc : c ≠ '%') :
    ∃ b' : Str, b' <:+ b ∧ commentMark ('%' :: b ++ c :: s) = .ok () (b' ++ c :: s) := by
  by_cases h4 : ['%', '%', '%'] <+: b
  · have hp : ['%', '%', '%', '%'].isPrefixOf ('%' :: b ++ c :: s) = true := by
      rw [List.isPrefixOf_iff_prefix]
      show ['%', '%', '%', '%'] <+: '%' :: b ++ c :: s
      obtain ⟨x, hx⟩ := h4
      exact ⟨x ++ c :: s, by simp [← hx]⟩
    refine ⟨b.dropWhile (· == '%'), List.dropWhile_suffix _, ?_⟩
    rw [commentMark, if_pos hp]
    have : ∀ x : Str, (x ++ c :: s).dropWhile (· == '%') = x.dropWhile (· == '%') ++ c :: s := by
      intro x
      induction x with
      | nil => simp [hc]
      | cons d x ih =>
        by_cases hd : d = '%'
        · subst hd
          simpa using ih
        · simp [hd]
    rw [this ('%' :: b)]
    rfl
  · have h2 : ¬ ['%', '%'] <+: b := fun h => h3 ⟨h, h4⟩
    have hp4 : ¬ ['%', '%', '%', '%'] <+: ('%' :: b ++ c :: s) := by
      intro h
      have h' : ['%', '%', '%', '%'] <+: '%' :: b := prefix_extend (by simpa using hc) h
      exact h4 (List.cons_prefix_cons.mp h').2
    have hp3 : ¬ ['%', '%', '%'] <+: ('%' :: b ++ c :: s) := by
      intro h
      have h' : ['%', '%', '%'] <+: '%' :: b := prefix_extend (by simpa using hc) h
      exact h2 (List.cons_prefix_cons.mp h').2
    refine ⟨b, List.suffix_refl b, ?_⟩
    rw [commentMark, isPrefixOf_false hp4, isPrefixOf_false hp3]
    simp only [Bool.false_eq_true, if_false]
    exact tag_append ['%'] (b ++ c :: s)

theorem notLineEnding_eol {b eol s : Str} (hb : ∀ d ∈ b, d ≠ '\r' ∧ d ≠ '\n') (he : Eol eol) :
    notLineEnding (b ++ (eol ++ s)) = .ok b (eol ++ s) := by
  have hall : ∀ d ∈ b, (!(d == '\r' || d == '\n')) = true := by
    intro d hd
    obtain ⟨g1, g2⟩ := hb d hd
    simp [g1, g2]
  obtain ⟨g1, g2⟩ := takeWhile_append_stop (f := fun c => !(c == '\r' || c == '\n')) (a := b)
    (r := eol ++ s) hall (by rcases he with rfl | rfl <;> simp)
  unfold notLineEnding
  rw [g1, g2]
  rcases he with rfl | rfl <;> rfl

theorem lineEnd_eol {eol s : Str} (he : Eol eol) : lineEnd (eol ++ s) = .ok () s := by
  rcases he with rfl | rfl <;> rfl

theorem lineComment_line {b eol s : Str} (hb : ∀ d ∈ b, d ≠ '\r' ∧ d ≠ '\n')
    (h3 : ¬ ((['%', '%'] <+: b) ∧ ¬ (['%', '%', '%'] <+: b))) (he : Eol eol) :
    lineComment ('%' :: b ++ (eol ++ s)) = .ok () s := by
  obtain ⟨c, x, hx, hc⟩ : ∃ (c : Char) (x : Str), eol ++ s = c :: x ∧ c ≠ '%' := by
    rcases he with rfl | rfl
    · exact ⟨_, _, rfl, by decide⟩
    · exact ⟨_, _, rfl, by decide⟩
  obtain ⟨b', hb', hm⟩ := commentMark_line (s := x) h3 hc
  rw [← hx] at hm
  have hn : notLineEnding (b' ++ (eol ++ s)) = .ok b' (eol ++ s) :=
    notLineEnding_eol (fun d hd => hb d (hb'.subset hd)) he
  rw [lineComment, andThen_ok hm, andThen_ok hn]
  exact lineEnd_eol he

theorem closedComment_closed {b s : Str} (hb : Absent ['*', '/'] (b ++ ['*'])) :
    closedComment ('/' :: '*' :: b ++ '*' :: '/' :: s) = .ok () s := by
  have h1 : tag ['/', '*'] ('/' :: '*' :: b ++ '*' :: '/' :: s) = .ok () (b ++ '*' :: '/' :: s) :=
    tag_append ['/', '*'] _
  have h2 : takeUntil ['*', '/'] (b ++ '*' :: '/' :: s) = .ok b ('*' :: '/' :: s) :=
    takeUntil_append (t := ['*']) (m := '/') s hb
  rw [closedComment, andThen_ok h1, andThen_ok h2]
  exact tag_append ['*', '/'] s

theorem Ws.steps {w : Str} (h : Ws w) {r : Str} (hr : ∀ c ∈ r.head?, isSpace c = false) :
    ∃ l, ManySteps wsStep (w ++ r) l r := by
  generalize hn : w.length = n
  induction n using Nat.strongRecOn generalizing w with
  | ind n ih =>
    subst hn
    cases h with
    | nil => exact ⟨[], .nil⟩
    | @space c w hc hw =>
      have hs : isSpace c = true := by
        rcases hc with rfl | rfl | rfl | rfl <;> rfl
      have hcw : (c :: w) = (c :: w).takeWhile isSpace ++ w.dropWhile isSpace := by
        have := List.takeWhile_append_dropWhile (p := isSpace) (l := c :: w)
        rw [List.dropWhile_cons_of_pos hs] at this
        exact this.symm
      have hhead : ∀ d ∈ (w.dropWhile isSpace ++ r).head?, isSpace d = false := by
        intro d hd
        cases hx : w.dropWhile isSpace with
        | nil =>
          rw [hx] at hd
          exact hr d hd
        | cons e x =>
          have := List.head?_dropWhile_not isSpace w
          rw [hx] at this hd
          simp only [List.cons_append, List.head?_cons, Option.mem_def, Option.some.injEq] at hd
          subst hd
          simpa using this
      have h1 : wsStep (c :: w ++ r) = .ok () (w.dropWhile isSpace ++ r) := by
        rw [wsStep]
        apply alt_ok
        apply pmap_ok (a := (c :: w).takeWhile isSpace)
        rw [hcw, List.append_assoc]
        have := takeWhile1_append (f := isSpace) (a := (c :: w).takeWhile isSpace)
          (r := w.dropWhile isSpace ++ r) (by simp [hs])
          (fun d hd => mem_takeWhile hd) hhead
        rw [← hcw]
        exact this
      obtain ⟨l, hl⟩ := ih (w.dropWhile isSpace).length
        (by have := (List.dropWhile_suffix (l := w) isSpace).length_le; simp; omega) hw.dropSpaces rfl
      refine ⟨() :: l, .cons h1 ?_ hl⟩
      have := (List.dropWhile_suffix (l := w) isSpace).length_le
      simp; omega
    | @line b eol w hb h3 he hw =>
      have h1 : wsStep ('%' :: b ++ (eol ++ w) ++ r) = .ok () (w ++ r) := by
        rw [List.append_assoc, List.append_assoc, wsStep, alt_err]
        · exact alt_ok (lineComment_line hb h3 he)
        · exact pmap_err (takeWhile1_err (by simp; rfl))
      obtain ⟨l, hl⟩ := ih w.length (by simp; omega) hw rfl
      exact ⟨() :: l, .cons h1 (by simp; omega) hl⟩
    | @closed b w hb hw =>
      have h1 : wsStep ('/' :: '*' :: b ++ '*' :: '/' :: w ++ r) = .ok () (w ++ r) := by
        rw [List.append_assoc, wsStep, alt_err]
        · rw [alt_err]
          · exact closedComment_closed hb
          · rw [lineComment]
            apply andThen_err
            rw [commentMark]
            rw [isPrefixOf_false, isPrefixOf_false]
            · simp only [Bool.false_eq_true, if_false]
              exact tag_ne _ _ (by decide)
            · rintro ⟨x, hx⟩
              exact absurd (List.cons.inj hx).1 (by decide)
            · rintro ⟨x, hx⟩
              exact absurd (List.cons.inj hx).1 (by decide)
        · exact pmap_err (takeWhile1_err (by simp; rfl))
      obtain ⟨l, hl⟩ := ih w.length (by simp; omega) hw rfl
      exact ⟨() :: l, .cons h1 (by simp; omega) hl⟩

/-- White space and comments are skipped entirely. -/
theorem wsoc_append {w r : Str} (h : Ws w) (hr : NoWs r) : wsoc (w ++ r) = .ok () r := by
  obtain ⟨l, hl⟩ := h.steps hr.head
  rw [wsoc, pmap_ok (hl.many0 (wsStep_err hr))]

theorem wsStep_space {r : Str} (he : wsStep r = .err) : ∀ c ∈ r.head?, isSpace c = false := by
  intro c hc
  cases r with
  | nil => simp at hc
  | cons d r =>
    simp only [List.head?_cons, Option.mem_def, Option.some.injEq] at hc
    subst hc
    cases h : isSpace d with
    | false => rfl
    | true => simp [wsStep, alt, pmap, takeWhile1, h] at he

theorem wsoc_append' {w r : Str} (h : Ws w) (he : wsStep r = .err) : wsoc (w ++ r) = .ok () r := by
  obtain ⟨l, hl⟩ := h.steps (wsStep_space he)
  rw [wsoc, pmap_ok (hl.many0 he)]

theorem wsoc_none {r : Str} (hr : NoWs r) : wsoc r = .ok () r := wsoc_append .nil hr

theorem Ws.append {w w' : Str} (h : Ws w) (h' : Ws w') : Ws (w ++ w') := by
  induction h with
  | nil => exact h'
  | space hc _ ih => exact .space hc ih
  | @line b eol w hb h3 he _ ih =>
    have := Ws.line hb h3 he ih
    simpa using this
  | @closed b w hb _ ih =>
    have := Ws.closed hb ih
    simpa using this

/-- How white space can start. -/
theorem Ws.head {w : Str} (h : Ws w) : ∀ c ∈ w.head?, c ∈ [' ', '\t', '\r', '\n', '%', '/'] := by
  cases h with
  | nil => simp
  | space hc _ => rcases hc with rfl | rfl | rfl | rfl <;> simp
  | line _ _ _ _ => simp
  | closed _ _ => simp

end Verif.Parse
