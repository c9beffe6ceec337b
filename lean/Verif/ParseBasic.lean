import Verif.ParseLex

/-!
# Names, keywords and basic expressions are read as written
-/
namespace Verif.Parse

set_option linter.unusedSimpArgs false

/-! ## What can follow -/

/-- An operator symbol of `cs` follows, after white space. -/
def OpsOf (cs : List Char) (r : Str) : Prop :=
  ∃ (w : Str) (c : Char) (r' : Str), r = w ++ c :: r' ∧ Gap w ∧ c ∈ cs ∧
    (c = '/' → r'.head? ≠ some '*')

/-- What may follow an operand. -/
def After (r : Str) : Prop := Stops r ∨ OpsOf ['*', '/', '+', '-'] r

/-- What may follow a summand. -/
def AfterAdd (r : Str) : Prop := Stops r ∨ OpsOf ['+', '-'] r

theorem OpsOf.mono {cs ds : List Char} (h : ∀ c ∈ cs, c ∈ ds) {r : Str} (hr : OpsOf cs r) :
    OpsOf ds r := by
  obtain ⟨w, c, r', h1, h2, h3, h4⟩ := hr
  exact ⟨w, c, r', h1, h2, h c h3, h4⟩

theorem AfterAdd.after {r : Str} (h : AfterAdd r) : After r := by
  rcases h with h | h
  · exact Or.inl h
  · exact Or.inr (h.mono (by decide))

theorem Stops.afterAdd {r : Str} (h : Stops r) : AfterAdd r := Or.inl h
theorem Stops.after {r : Str} (h : Stops r) : After r := Or.inl h

/-- The characters a text that follows an operand can start with. -/
def afterChars : List Char :=
  [' ', '\t', '\r', '\n', '/', ')', ',', '}', '=', '!', '<', '>', ']', ':', '.', '*', '+', '-']

theorem Gap.head {w : Str} (h : Gap w) : ∀ c ∈ w.head?, c ∈ [' ', '\t', '\r', '\n', '/'] := by
  intro c hc
  have h1 := h.1.head c hc
  have h2 : c ≠ '%' := by
    rintro rfl
    exact h.2 hc
  simp only [List.mem_cons, List.not_mem_nil, or_false] at h1 ⊢
  rcases h1 with h | h | h | h | h | h
  · simp [h]
  · simp [h]
  · simp [h]
  · simp [h]
  · exact absurd h h2
  · simp [h]

/-- Splitting off the shape shared by everything that can follow an operand. -/
theorem After.shape {r : Str} (h : After r) : r = [] ∨
    ∃ (w : Str) (c : Char) (r' : Str), r = w ++ c :: r' ∧ Gap w ∧
      c ∈ [')', ',', '}', '=', '!', '<', '>', ']', ':', '.', '*', '/', '+', '-'] ∧
      (c = ':' → r'.head? = some '-') ∧ (c = '.' → ∀ d ∈ r'.head?, d.isDigit = false) ∧
      (c = '/' → r'.head? ≠ some '*') := by
  rcases h with h | ⟨w, c, r', h1, h2, h3, h4⟩
  · rcases h with h | ⟨w, c, r', h1, h2, h3⟩
    · exact Or.inl h
    · refine Or.inr ⟨w, c, r', h1, h2, ?_⟩
      rcases h3 with h3 | ⟨rfl, h3⟩ | ⟨rfl, h3⟩
      · simp only [List.mem_cons, List.not_mem_nil, or_false] at h3
        rcases h3 with rfl | rfl | rfl | rfl | rfl | rfl | rfl | rfl <;> simp
      · simp [h3]
      · simp only [List.mem_cons, List.not_mem_nil, or_false]
        refine ⟨by simp, by simp, fun _ => h3, by simp⟩
  · refine Or.inr ⟨w, c, r', h1, h2, ?_⟩
    simp only [List.mem_cons, List.not_mem_nil, or_false] at h3
    rcases h3 with rfl | rfl | rfl | rfl <;> simp_all

theorem After.head {r : Str} (h : After r) : ∀ c ∈ r.head?, c ∈ afterChars := by
  rcases h.shape with rfl | ⟨w, c, r', rfl, h2, h3, _⟩
  · simp
  · intro d hd
    cases w with
    | nil =>
      simp only [List.nil_append, List.head?_cons, Option.mem_def, Option.some.injEq] at hd
      subst hd
      exact (by decide : ∀ c ∈ [')', ',', '}', '=', '!', '<', '>', ']', ':', '.', '*', '/', '+', '-'],
        c ∈ afterChars) _ h3
    | cons e w =>
      simp only [List.cons_append, List.head?_cons, Option.mem_def, Option.some.injEq] at hd
      subst hd
      exact (by decide : ∀ c ∈ [' ', '\t', '\r', '\n', '/'], c ∈ afterChars) _ (h2.head e (by simp))

theorem After.colon {r : Str} (h : After (':' :: r)) : r.head? = some '-' := by
  rcases h.shape with h | ⟨w, c, r', h1, h2, h3, h4, _⟩
  · simp at h
  · cases w with
    | nil =>
      simp only [List.nil_append, List.cons.injEq] at h1
      obtain ⟨rfl, rfl⟩ := h1
      exact h4 rfl
    | cons e w =>
      have := h2.head e (by simp)
      simp only [List.cons_append, List.cons.injEq] at h1
      rw [← h1.1] at this
      simp at this

theorem After.dot {r : Str} (h : After ('.' :: r)) : ∀ d ∈ r.head?, isDigit d = false := by
  rcases h.shape with h | ⟨w, c, r', h1, h2, h3, _, h4, _⟩
  · simp at h
  · cases w with
    | nil =>
      simp only [List.nil_append, List.cons.injEq] at h1
      obtain ⟨rfl, rfl⟩ := h1
      intro d hd
      rw [isDigit_eq]
      exact h4 rfl d hd
    | cons e w =>
      have := h2.head e (by simp)
      simp only [List.cons_append, List.cons.injEq] at h1
      rw [← h1.1] at this
      simp at this

theorem After.nameChar {r : Str} (h : After r) : ∀ c ∈ r.head?, nameChar c = false := by
  intro c hc
  have h1 := h.head c hc
  have : ∀ c ∈ afterChars, Verif.Parse.nameChar c = false := by decide
  exact this c h1

/-- What may follow a name. -/
def TagFollow (r : Str) : Prop :=
  (∀ c ∈ r.head?, nameChar c = false) ∧
    ∀ r' : Str, r = ':' :: r' → ∀ d ∈ r'.head?, isAlpha d = false

theorem After.tagFollow {r : Str} (h : After r) : TagFollow r := by
  refine ⟨h.nameChar, ?_⟩
  rintro r' rfl d hd
  rw [h.colon] at hd
  simp only [Option.mem_def, Option.some.injEq] at hd
  subst hd
  decide

theorem tagFollow_paren (r : Str) : TagFollow ('(' :: r) := by
  refine ⟨by simp; decide, ?_⟩
  intro r' h
  simp at h

theorem tagFollow_gap {w : Str} (hw : Gap w) (r : Str) : TagFollow (w ++ '{' :: r) := by
  have hh : ∀ c ∈ (w ++ '{' :: r).head?, c ∈ [' ', '\t', '\r', '\n', '/', '{'] := by
    intro c hc
    cases w with
    | nil =>
      simp only [List.nil_append, List.head?_cons, Option.mem_def, Option.some.injEq] at hc
      subst hc
      simp
    | cons e w =>
      have := hw.head e (by simp)
      simp only [List.cons_append, List.head?_cons, Option.mem_def, Option.some.injEq] at hc
      subst hc
      exact (by decide : ∀ c ∈ [' ', '\t', '\r', '\n', '/'], c ∈ [' ', '\t', '\r', '\n', '/', '{']) _
        this
  constructor
  · intro c hc
    have : ∀ c ∈ [' ', '\t', '\r', '\n', '/', '{'], nameChar c = false := by decide
    exact this c (hh c hc)
  · intro r' h
    have := hh ':' (by rw [h]; simp)
    simp at this

/-! ## Names of predicates, functions and constants -/

theorem iri_append {s r : Str} (h1 : s ≠ []) (h2 : ∀ d ∈ s, d ≠ '>' ∧ d ≠ ' ' ∧ d ≠ '\n') :
    iri ('<' :: (s ++ '>' :: r)) = .ok s r := by
  have h3 : iriText (s ++ '>' :: r) = .ok s ('>' :: r) := by
    refine takeWhile1_append h1 ?_ (by simp)
    intro c hc
    simp [h2 c hc]
  rw [iri, andThen_ok (tag1 '<' (s ++ '>' :: r)), andThen_ok h3, andThen_ok (tag1 '>' r)]
  rfl

theorem structureTag_append {t : Tag} {s r : Str} (h : TagText t s) (hr : TagFollow r) :
    structureTag (s ++ r) = .ok t r := by
  cases h with
  | @plain n hn =>
    have hname := name_append hn hr.1
    rw [structureTag, alt_err]
    · exact alt_ok (pmap_ok hname)
    · rw [andThen_ok (alt_ok hname)]
      by_cases hc : r.head? = some ':'
      · cases r with
        | nil => simp at hc
        | cons c r =>
          simp only [List.head?_cons, Option.some.injEq] at hc
          subst hc
          rw [andThen_ok (tag1 ':' r)]
          exact pmap_err (name_err (hr.2 r rfl))
      · exact andThen_err (tag_head hc)
  | @prefixed p n hp hn =>
    have hname := name_append hn hr.1
    rw [structureTag]
    apply alt_ok
    have hp' : alt name (ret []) (p ++ ':' :: n ++ r) = .ok p (':' :: (n ++ r)) := by
      rcases hp with rfl | hp
      · rw [List.nil_append, alt_err (name_err (by simp; decide))]
        rfl
      · rw [List.append_assoc]
        exact alt_ok (name_append hp (by simp; decide))
    rw [andThen_ok hp', andThen_ok (tag1 ':' (n ++ r))]
    exact pmap_ok hname
  | @iri s h1 h2 =>
    rw [structureTag, alt_err, alt_err]
    · rw [List.append_assoc]
      exact pmap_ok (iri_append h1 h2)
    · exact pmap_err (name_err (by simp; decide))
    · rw [andThen_ok (a := []) (r := '<' :: s ++ ['>'] ++ r)]
      · exact andThen_err (tag_head (by simp))
      · rw [alt_err (name_err (by simp; decide))]
        rfl

theorem structureTag_err {r : Str}
    (h : ∀ c ∈ r.head?, isAlpha c = false ∧ c ≠ ':' ∧ c ≠ '<') : structureTag r = .err := by
  have hn : name r = .err := name_err fun c hc => (h c hc).1
  rw [structureTag, alt_err, alt_err (pmap_err hn)]
  · apply pmap_err
    rw [iri]
    apply andThen_err
    exact tag_head fun hc => (h '<' (by simp [hc])).2.2 rfl
  · rw [andThen_ok (a := []) (r := r) (by rw [alt_err hn]; rfl)]
    apply andThen_err
    exact tag_head fun hc => (h ':' (by simp [hc])).2.1 rfl

/-- The first character of a name. -/
theorem TagText.head {t : Tag} {s : Str} (h : TagText t s) :
    ∃ (c : Char) (s' : Str), s = c :: s' ∧ (isAlpha c = true ∨ c = ':' ∨ c = '<') := by
  cases h with
  | plain hn =>
    obtain ⟨c, r, rfl, hc, _⟩ := hn.cons
    exact ⟨c, r, rfl, Or.inl hc⟩
  | @prefixed p n hp hn =>
    rcases hp with rfl | hp
    · exact ⟨':', n, rfl, by simp⟩
    · obtain ⟨c, r, rfl, hc, _⟩ := hp.cons
      exact ⟨c, r ++ ':' :: n, rfl, Or.inl hc⟩
  | iri => exact ⟨'<', _, rfl, by simp⟩

/-! ## Keywords -/

theorem lowers_eq (s : Str) : lowers s = s.map Char.toLower := by
  simp [lowers, funext lower_eq]

theorem sameName_iff (a b : Str) : SameName a b ↔ lowers a = lowers b := by
  rw [SameName, lowers_eq, lowers_eq]

theorem lower_of_not_alpha {c : Char} (h : isAlpha c = false) : lower c = c := by
  unfold lower
  split
  · rename_i hu
    simp only [isAlpha, Bool.or_eq_false_iff] at h
    rw [h.2] at hu
    exact absurd hu (by decide)
  · rfl

theorem keyword_cases (table : List Str) (s : Str) : keyword table s = .err ∨
    ∃ k ∈ table, lowers k <+: lowers s ∧ keyword table s = .ok k (s.drop k.length) := by
  unfold keyword
  cases h : table.find? fun k => (lowers k).isPrefixOf (lowers s) with
  | none => exact Or.inl rfl
  | some k =>
    refine Or.inr ⟨k, List.mem_of_find?_eq_some h, ?_, rfl⟩
    have := List.find?_some h
    exact List.isPrefixOf_iff_prefix.mp this

/-- The keywords consist of letters. -/
def LetterTable (table : List Str) : Prop := ∀ k ∈ table, k ≠ [] ∧ ∀ c ∈ lowers k, isAlpha c = true

theorem opTable_letters : LetterTable opTable := by
  have h : ∀ k ∈ opTable, k ≠ [] ∧ (lowers k).all isAlpha = true := by decide +kernel
  intro k hk
  exact ⟨(h k hk).1, fun c hc => List.all_eq_true.mp (h k hk).2 c hc⟩

theorem aggTable_letters : LetterTable aggTable := by
  have h : ∀ k ∈ aggTable, k ≠ [] ∧ (lowers k).all isAlpha = true := by decide +kernel
  intro k hk
  exact ⟨(h k hk).1, fun c hc => List.all_eq_true.mp (h k hk).2 c hc⟩

/-- No keyword is a prefix of a later one. -/
theorem opTable_prefix : opTable.Pairwise fun a b => ¬ lowers a <+: lowers b := by
  have h : opTable.Pairwise fun a b => (lowers a).isPrefixOf (lowers b) = false := by decide +kernel
  exact h.imp fun h' hp => by
    rw [List.isPrefixOf_iff_prefix.mpr hp] at h'
    exact Bool.noConfusion h'

theorem aggTable_prefix : aggTable.Pairwise fun a b => ¬ lowers a <+: lowers b := by
  have h : aggTable.Pairwise fun a b => (lowers a).isPrefixOf (lowers b) = false := by decide +kernel
  exact h.imp fun h' hp => by
    rw [List.isPrefixOf_iff_prefix.mpr hp] at h'
    exact Bool.noConfusion h'

theorem prefix_letters {x a r : Str} (hx : ∀ c ∈ x, isAlpha c = true)
    (hr : ∀ c ∈ r.head?, isAlpha c = false) (h : x <+: lowers (a ++ r)) : x <+: lowers a := by
  have h2 : lowers (a ++ r) = lowers a ++ lowers r := by simp [lowers]
  rw [h2] at h
  cases r with
  | nil => simpa [lowers] using h
  | cons c r =>
    have hc := hr c (by simp)
    have h3 : lowers (c :: r) = c :: lowers r := by
      simp only [lowers, List.map_cons, lower_of_not_alpha hc]
    rw [h3] at h
    refine prefix_extend ?_ h
    intro hm
    rw [hx c hm] at hc
    exact Bool.noConfusion hc

theorem keyword_err {table : List Str} (ht : LetterTable table) {s : Str}
    (hs : ∀ c ∈ s.head?, isAlpha c = false) : keyword table s = .err := by
  rcases keyword_cases table s with h | ⟨k, hk, hp, _⟩
  · exact h
  · have h1 : lowers k <+: lowers [] := prefix_letters (a := []) (r := s) (ht k hk).2 hs hp
    have h2 : lowers k = [] := List.prefix_nil.mp h1
    have h3 : k = [] := by simpa [lowers] using h2
    exact absurd h3 (ht k hk).1

/-- A keyword is found however its letters are capitalised. -/
theorem keyword_hit {table : List Str} (ht : LetterTable table)
    (hp : table.Pairwise fun a b => ¬ lowers a <+: lowers b) {k nm r : Str} (hk : k ∈ table)
    (hn : SameName nm k) (hr : ∀ c ∈ r.head?, isAlpha c = false) :
    keyword table (nm ++ r) = .ok k r := by
  have hlen : k.length = nm.length := by
    have := congrArg List.length ((sameName_iff nm k).mp hn)
    simpa [lowers] using this.symm
  have hfind : table.find? (fun k => (lowers k).isPrefixOf (lowers (nm ++ r))) = some k := by
    have hself : lowers k <+: lowers (nm ++ r) := by
      rw [← (sameName_iff nm k).mp hn]
      exact ⟨lowers r, by simp [lowers]⟩
    induction table with
    | nil => simp at hk
    | cons a table ih =>
      rw [List.pairwise_cons] at hp
      by_cases ha : lowers a <+: lowers (nm ++ r)
      · have h1 : lowers a <+: lowers nm := prefix_letters (ht a (by simp)).2 hr ha
        rw [(sameName_iff nm k).mp hn] at h1
        rcases List.mem_cons.mp hk with rfl | hk
        · rw [List.find?_cons_of_pos]
          exact List.isPrefixOf_iff_prefix.mpr ha
        · exact absurd h1 (hp.1 k hk)
      · rw [List.find?_cons_of_neg]
        · rcases List.mem_cons.mp hk with rfl | hk
          · exact absurd hself ha
          · exact ih (fun k hk => ht k (by simp [hk])) hp.2 hk
        · rw [isPrefixOf_false ha]
          decide
  unfold keyword
  rw [hfind]
  simp [hlen]

/-- What the keyword loop does on a name: it finds nothing, or a keyword that is a proper beginning of
the name, or the whole name. -/
theorem keyword_name {table : List Str} (ht : LetterTable table) {n r : Str}
    (hn : ∀ c ∈ n, nameChar c = true) (hr : ∀ c ∈ r.head?, nameChar c = false) :
    keyword table (n ++ r) = .err ∨
    (∃ (k : Str) (c : Char) (m : Str), keyword table (n ++ r) = .ok k (c :: m) ∧ nameChar c = true) ∨
    (∃ k ∈ table, SameName n k ∧ keyword table (n ++ r) = .ok k r) := by
  rcases keyword_cases table (n ++ r) with h | ⟨k, hk, hp, h⟩
  · exact Or.inl h
  · right
    have hr' : ∀ c ∈ r.head?, isAlpha c = false := by
      intro c hc
      cases h' : isAlpha c with
      | false => rfl
      | true =>
        have := hr c hc
        rw [nameChar_of_alpha h'] at this
        exact Bool.noConfusion this
    have hpre : lowers k <+: lowers n := prefix_letters (ht k hk).2 hr' hp
    have hle : k.length ≤ n.length := by simpa [lowers] using hpre.length_le
    by_cases hlt : k.length < n.length
    · left
      cases hd : n.drop k.length with
      | nil =>
        have := congrArg List.length hd
        simp at this
        omega
      | cons c m =>
        refine ⟨k, c, m ++ r, ?_, ?_⟩
        · rw [h, List.drop_append_of_le_length hle, hd]
          rfl
        · apply hn
          have : c ∈ n.drop k.length := by rw [hd]; simp
          exact List.mem_of_mem_drop this
    · right
      have heq : k.length = n.length := by omega
      refine ⟨k, hk, ?_, ?_⟩
      · rw [sameName_iff]
        exact (hpre.eq_of_length (by simp [lowers, heq])).symm
      · rw [h, heq]
        simp

end Verif.Parse
