import Verif.ParseProofs
import Verif.ParseProgramText

/-!
# Literals and rules are read as written
-/
namespace Verif.Parse

set_option linter.unusedSimpArgs false

/-! ## Inversion of the combinators -/

theorem andThen_inv {p : P α} {f : α → P β} {s r : Str} {b : β} (h : andThen p f s = .ok b r) :
    ∃ (a : α) (r' : Str), p s = .ok a r' ∧ f a r' = .ok b r := by
  unfold andThen at h
  split at h
  · exact ⟨_, _, by assumption, h⟩
  · cases h
  · cases h

theorem pmap_inv {p : P α} {f : α → β} {s r : Str} {b : β} (h : pmap f p s = .ok b r) :
    ∃ a : α, p s = .ok a r ∧ f a = b := by
  unfold pmap at h
  split at h
  · injection h with h1 h2
    subst h1 h2
    exact ⟨_, by assumption, rfl⟩
  · cases h
  · cases h

theorem alt_inv {p q : P α} {s r : Str} {a : α} (h : alt p q s = .ok a r) :
    p s = .ok a r ∨ (p s = .err ∧ q s = .ok a r) := by
  unfold alt at h
  split at h
  · exact Or.inr ⟨by assumption, h⟩
  · injection h with h1 h2
    subst h1 h2
    exact Or.inl (by assumption)
  · cases h

theorem aggregation_inv {ex : P Ex} {s r : Str} {a : Ex} (h : aggregation ex s = .ok a r) :
    ∃ k e d, a = .aggregation k e d := by
  rw [aggregation] at h
  obtain ⟨_, _, _, h⟩ := andThen_inv h
  obtain ⟨k, _, _, h⟩ := andThen_inv h
  rw [bracketed] at h
  obtain ⟨_, _, _, h⟩ := andThen_inv h
  obtain ⟨_, _, _, h⟩ := andThen_inv h
  obtain ⟨a', _, h1, h⟩ := andThen_inv h
  obtain ⟨_, _, _, h⟩ := andThen_inv h
  obtain ⟨_, _, _, h⟩ := andThen_inv h
  injection h with h h'
  subst h
  obtain ⟨e, _, _, h1⟩ := andThen_inv h1
  obtain ⟨d, _, h1⟩ := pmap_inv h1
  exact ⟨_, _, _, h1.symm⟩

theorem operation_inv {ex : P Ex} {s r : Str} {a : Ex} (h : operation ex s = .ok a r) :
    ∃ k es, a = .operation k es := by
  rw [operation] at h
  obtain ⟨k, _, _, h⟩ := andThen_inv h
  obtain ⟨es, _, h⟩ := pmap_inv h
  exact ⟨_, _, h.symm⟩

theorem atom_inv {ex : P Ex} {s r : Str} {a : Ex} (h : atom ex s = .ok a r) :
    ∃ t es, a = .atom t es := by
  rw [atom] at h
  obtain ⟨k, _, _, h⟩ := andThen_inv h
  obtain ⟨es, _, h⟩ := pmap_inv h
  exact ⟨_, _, h.symm⟩

theorem mapP_inv {ex : P Ex} {s r : Str} {a : Ex} (h : mapP ex s = .ok a r) :
    ∃ t kvs, a = .map t kvs := by
  rw [mapP] at h
  obtain ⟨k, _, _, h⟩ := andThen_inv h
  obtain ⟨es, _, h⟩ := pmap_inv h
  exact ⟨_, _, h.symm⟩

theorem negation_inv {ex : P Ex} {s r : Str} {a : Ex} (h : negation ex s = .ok a r) :
    ∃ e, a = .negation e := by
  rw [negation] at h
  obtain ⟨k, _, _, h⟩ := andThen_inv h
  obtain ⟨k, _, _, h⟩ := andThen_inv h
  obtain ⟨es, _, h⟩ := pmap_inv h
  exact ⟨_, h.symm⟩

theorem tuple_inv {ex : P Ex} {s r : Str} {a : Ex} (h : tuple ex s = .ok a r) :
    ∃ es, a = .tuple es := by
  rw [tuple] at h
  obtain ⟨es, _, h⟩ := pmap_inv h
  exact ⟨_, h.symm⟩

theorem formatString_inv {ex : P Ex} {s r : Str} {a : Ex} (h : formatString ex s = .ok a r) :
    ∃ l, a = .formatString l := by
  rw [formatString] at h
  rcases alt_inv h with h | ⟨_, h⟩
  all_goals
    obtain ⟨_, _, _, h⟩ := andThen_inv h
    obtain ⟨l, _, _, h⟩ := andThen_inv h
    obtain ⟨_, _, _, h⟩ := andThen_inv h
    injection h with h h'
    exact ⟨l, h.symm⟩

theorem complex_atom {ex : P Ex} {s r : Str} {t : Tag} {es : List Ex}
    (h : complex ex s = .ok (.atom t es) r) : atom ex s = .ok (.atom t es) r := by
  rw [complex] at h
  rcases alt_inv h with h | ⟨_, h⟩
  · obtain ⟨_, _, _, h⟩ := aggregation_inv h
    exact Ex.noConfusion h
  rcases alt_inv h with h | ⟨_, h⟩
  · obtain ⟨_, _, h⟩ := operation_inv h
    exact Ex.noConfusion h
  rcases alt_inv h with h | ⟨_, h⟩
  · exact h
  rcases alt_inv h with h | ⟨_, h⟩
  · obtain ⟨_, _, h⟩ := mapP_inv h
    exact Ex.noConfusion h
  rcases alt_inv h with h | ⟨_, h⟩
  · obtain ⟨_, h⟩ := negation_inv h
    exact Ex.noConfusion h
  rcases alt_inv h with h | ⟨_, h⟩
  · obtain ⟨_, h⟩ := tuple_inv h
    exact Ex.noConfusion h
  · obtain ⟨_, h⟩ := formatString_inv h
    exact Ex.noConfusion h

theorem complex_map {ex : P Ex} {s r : Str} {t : Option Tag} {kvs : List (Ex × Ex)}
    (h : complex ex s = .ok (.map t kvs) r) : mapP ex s = .ok (.map t kvs) r := by
  rw [complex] at h
  rcases alt_inv h with h | ⟨_, h⟩
  · obtain ⟨_, _, _, h⟩ := aggregation_inv h
    exact Ex.noConfusion h
  rcases alt_inv h with h | ⟨_, h⟩
  · obtain ⟨_, _, h⟩ := operation_inv h
    exact Ex.noConfusion h
  rcases alt_inv h with h | ⟨_, h⟩
  · obtain ⟨_, _, h⟩ := atom_inv h
    exact Ex.noConfusion h
  rcases alt_inv h with h | ⟨_, h⟩
  · exact h
  rcases alt_inv h with h | ⟨_, h⟩
  · obtain ⟨_, h⟩ := negation_inv h
    exact Ex.noConfusion h
  rcases alt_inv h with h | ⟨_, h⟩
  · obtain ⟨_, h⟩ := tuple_inv h
    exact Ex.noConfusion h
  · obtain ⟨_, h⟩ := formatString_inv h
    exact Ex.noConfusion h

/-! ## Texts that are no expression -/

theorem expr_err_of {n : Nat} {s : Str} (hc : ∀ ex, complex ex s = .err) (hb : basic s = .err)
    (hp : s.head? ≠ some '(') : (both n).1 s = .err := by
  cases n with
  | zero => rfl
  | succ n =>
    have hn : nonArith (both n).1 s = .err := by
      rw [nonArith, alt_err (hc _)]
      exact hb
    have hf : factor (both n).1 (both n).2 s = .err := by
      rw [factor, alt_err (pmap_err (bracketed_err hp)), alt_err hn]
      exact bracketed_err hp
    show expr (both n).1 (both n).2 s = .err
    rw [expr, alt_err (arithmetic_err hf), alt_err (parenthesized_err hp)]
    exact hn

theorem structureTag_arrow (r : Str) : structureTag (':' :: '-' :: r) = .err := by
  have hn : name (':' :: '-' :: r) = .err := name_err (by simp; decide)
  rw [structureTag, alt_err, alt_err (pmap_err hn)]
  · apply pmap_err
    rw [iri]
    exact andThen_err (tag_head (by simp))
  · rw [andThen_ok (a := []) (r := ':' :: '-' :: r) (by rw [alt_err hn]; rfl), andThen_ok (tag1 ':' _)]
    exact pmap_err (name_err (by simp; decide))

theorem complex_arrow (ex : P Ex) (r : Str) : complex ex (':' :: '-' :: r) = .err := by
  rw [complex, alt_err (aggregation_err (by simp)),
    alt_err (operation_err (Or.inl (keyword_err opTable_letters (by simp; decide)))),
    alt_err (atom_err (Or.inl (structureTag_arrow r))),
    alt_err (mapP_err_none (structureTag_arrow r) (by simp)), alt_err (negation_err (by simp)),
    alt_err (tuple_err (by simp))]
  exact formatString_err_head (by simp)

theorem basic_arrow (r : Str) : basic (':' :: '-' :: r) = .err := by
  rw [basic, alt_err (blank_err (by simp)), alt_err (boolean_err_head (by simp) (by simp)), alt_err,
    alt_err (encodedNumber_err (by simp)), alt_err (number_err (by simp; decide)),
    alt_err (rdfLiteral_err_head (by simp)), alt_err (stringLiteral_err_head (by simp))]
  · exact variableP_err (by simp) (by simp) (by simp) (by simp)
  · rw [constant]
    exact pmap_err (structureTag_arrow r)

theorem expr_arrow (n : Nat) (r : Str) : (both n).1 (':' :: '-' :: r) = .err :=
  expr_err_of (fun ex => complex_arrow ex r) (basic_arrow r) (by simp)

theorem complex_hash (ex : P Ex) {r : Str} (hr : ∀ c ∈ r.head?, isAlpha c = false) :
    complex ex ('#' :: r) = .err := by
  have hs : structureTag ('#' :: r) = .err := structureTag_err (by simp; decide)
  rw [complex, alt_err, alt_err (operation_err (Or.inl (keyword_err opTable_letters (by simp; decide)))),
    alt_err (atom_err (Or.inl hs)), alt_err (mapP_err_none hs (by simp)), alt_err (negation_err (by simp)),
    alt_err (tuple_err (by simp))]
  · exact formatString_err_head (by simp)
  · rw [aggregation, andThen_ok (tag1 '#' _)]
    apply andThen_err
    rw [alt_err (pmap_err (keyword_err aggTable_letters hr))]
    exact pmap_err (name_err hr)

theorem expr_hash (n : Nat) {r : Str} (hr : ∀ c ∈ r.head?, isAlpha c = false) :
    (both n).1 ('#' :: r) = .err :=
  expr_err_of (fun ex => complex_hash ex hr) (basic_err (by simp)) (by simp)

theorem guard_err {n : Nat} {s : Str} (he : ∀ n, (both n).1 s = .err)
    (hc : ∀ ex, complex ex s = .err) : guard n s = .err := by
  rw [guard, infixExpr, alt_err (andThen_err (show expression n s = .err from he n))]
  exact pmap_err (hc _)

theorem guard_arrow (n : Nat) (r : Str) : guard n (':' :: '-' :: r) = .err :=
  guard_err (fun n => expr_arrow n r) fun ex => complex_arrow ex r

theorem guard_hash (n : Nat) {r : Str} (hr : ∀ c ∈ r.head?, isAlpha c = false) :
    guard n ('#' :: r) = .err :=
  guard_err (fun n => expr_hash n hr) fun ex => complex_hash ex hr

theorem guard_bracket (n : Nat) (r : Str) : guard n ('#' :: '[' :: r) = .err :=
  guard_hash n (by simp; decide)

theorem complex_err_start {ex : P Ex} {s : Str} (h : ∀ c ∈ s.head?, ¬ Start c) : complex ex s = .err := by
  apply complex_err_head
  intro c hc
  have h1 := h c hc
  constructor
  · cases ha : isAlpha c with
    | false => rfl
    | true => exact absurd (Or.inl ha) h1
  · intro hm
    exact h1 ((by decide : ∀ c ∈ complexChars, Start c) c hm)

theorem guard_start {n : Nat} {s : Str} (h : ∀ c ∈ s.head?, ¬ Start c) : guard n s = .err :=
  guard_err (fun _ => expr_err_head h) fun _ => complex_err_start h

/-! ## Literals -/

/-- What follows a literal: a comma, the arrow of a rule, or the dot at the end of the statement. -/
def Ends (r : Str) : Prop :=
  ∃ (w : Str) (c : Char) (r' : Str), r = w ++ c :: r' ∧ Gap w ∧
    (c = ',' ∨ (c = ':' ∧ r'.head? = some '-') ∨ (c = '.' ∧ ∀ d ∈ r'.head?, d.isDigit = false))

theorem Ends.stops {r : Str} (h : Ends r) : Stops r := by
  obtain ⟨w, c, r', rfl, hw, hc⟩ := h
  refine Or.inr ⟨w, c, r', rfl, hw, ?_⟩
  rcases hc with rfl | h | h
  · exact Or.inl (by decide)
  · exact Or.inr (Or.inl h)
  · exact Or.inr (Or.inr h)

theorem ends_comma {w r : Str} (hw : Gap w) : Ends (w ++ ',' :: r) := ⟨w, ',', r, rfl, hw, Or.inl rfl⟩

theorem ends_arrow {w r : Str} (hw : Gap w) : Ends (w ++ ':' :: '-' :: r) :=
  ⟨w, ':', '-' :: r, rfl, hw, Or.inr (Or.inl ⟨rfl, rfl⟩)⟩

theorem ends_dot {w r : Str} (hw : Gap w) (hr : ∀ d ∈ r.head?, d.isDigit = false) :
    Ends (w ++ '.' :: r) := ⟨w, '.', r, rfl, hw, Or.inr (Or.inr ⟨rfl, hr⟩)⟩

theorem infixOp_err {s : Str} (h : ∀ c ∈ s.head?, c ∉ ['=', '!', '>', '<']) : infixOp s = .err := by
  have hne : ∀ c ∈ ['=', '!', '>', '<'], s.head? ≠ some c := fun c hc he => h c he hc
  rw [infixOp, alt_err (pmap_err (tag_head (hne _ (by decide)))),
    alt_err (pmap_err (tag_head (hne _ (by decide)))), alt_err (pmap_err (tag_head (hne _ (by decide)))),
    alt_err (pmap_err (tag_head (hne _ (by decide)))), alt_err (pmap_err (tag_head (hne _ (by decide))))]
  exact pmap_err (tag_head (hne _ (by decide)))

theorem Ends.wsoc {r : Str} (h : Ends r) : ∃ r', wsoc r = .ok () r' ∧ infixOp r' = .err := by
  obtain ⟨w, c, r', rfl, hw, hc⟩ := h
  have hc' : c ∈ [',', ':', '.'] := by
    rcases hc with rfl | ⟨rfl, _⟩ | ⟨rfl, _⟩ <;> decide
  have hf := (by decide : ∀ c ∈ [',', ':', '.'],
      isSpace c = false ∧ c ≠ '%' ∧ c ≠ '/' ∧ c ∉ ['=', '!', '>', '<']) c hc'
  exact ⟨c :: r', wsoc_append hw.1 (noWs_cons hf.1 hf.2.1 hf.2.2.1), infixOp_err (head_cons hf.2.2.2)⟩

theorem infixOp_append {o : IOp} {w' s : Str} (hw : Ws w') (hs : Starts s) :
    infixOp (o.text ++ (w' ++ s)) = .ok o (w' ++ s) := by
  have hne : (w' ++ s).head? ≠ some '=' := by
    intro he
    cases w' with
    | nil => exact hs.head_ne (by decide) he
    | cons c w' =>
      have := hw.head c rfl
      simp only [List.cons_append, List.head?_cons, Option.some.injEq] at he
      subst he
      revert this
      decide
  cases o with
  | eq => exact alt_ok (pmap_ok (tag1 '=' _))
  | ne =>
    rw [infixOp, alt_err (pmap_err (tag_head (by simp [IOp.text])))]
    exact alt_ok (pmap_ok (tag_append ['!', '='] _))
  | ge =>
    rw [infixOp, alt_err (pmap_err (tag_head (by simp [IOp.text]))),
      alt_err (pmap_err (tag_head (by simp [IOp.text])))]
    exact alt_ok (pmap_ok (tag_append ['>', '='] _))
  | gt =>
    show infixOp ('>' :: (w' ++ s)) = _
    rw [infixOp, alt_err (pmap_err (tag_head (by simp [IOp.text]))),
      alt_err (pmap_err (tag_head (by simp [IOp.text]))), alt_err (pmap_err (tag_second hne))]
    exact alt_ok (pmap_ok (tag_append ['>'] _))
  | le =>
    rw [infixOp, alt_err (pmap_err (tag_head (by simp [IOp.text]))),
      alt_err (pmap_err (tag_head (by simp [IOp.text]))),
      alt_err (pmap_err (tag_head (by simp [IOp.text]))), alt_err (pmap_err (tag_head (by simp [IOp.text])))]
    exact alt_ok (pmap_ok (tag_append ['<', '='] _))
  | lt =>
    show infixOp ('<' :: (w' ++ s)) = _
    rw [infixOp, alt_err (pmap_err (tag_head (by simp [IOp.text]))),
      alt_err (pmap_err (tag_head (by simp [IOp.text]))),
      alt_err (pmap_err (tag_head (by simp [IOp.text]))),
      alt_err (pmap_err (tag_head (by simp [IOp.text]))), alt_err (pmap_err (tag_second hne))]
    exact pmap_ok (tag_append ['<'] _)

theorem stops_op {o : IOp} {w r : Str} (hw : Gap w) : Stops (w ++ (o.text ++ r)) := by
  cases o <;> exact stops_of hw (by decide)

theorem noWs_op_text (o : IOp) (r : Str) : NoWs (o.text ++ r) := by
  cases o <;> exact noWs_cons (by decide) (by decide) (by decide)

theorem GuardText.starts {g : Guard} {s : Str} (h : GuardText g s) : Starts s := by
  cases h with
  | complex h => exact h.startClaim
  | negated h => exact h.startClaim
  | compare h => exact Starts.append h.startClaim _

/-- An expression that is a whole literal. -/
theorem guard_expression {n : Nat} {e : Ex} {s r : Str} (hr : Ends r)
    (he : (both (n + 1)).1 (s ++ r) = .ok e r) (hc : complex (both (n + 1)).1 (s ++ r) = .ok e r) :
    guard (n + 1) (s ++ r) = .ok (.expression e) r := by
  obtain ⟨r', h1, h2⟩ := hr.wsoc
  rw [guard, alt_err]
  · exact pmap_ok hc
  · rw [infixExpr]
    rw [andThen_ok (show expression (n + 1) (s ++ r) = .ok e r from he), andThen_ok h1]
    exact andThen_err h2

theorem GuardText.read {g : Guard} {s r : Str} {n : Nat} (h : GuardText g s) (hn : s.length ≤ n)
    (hr : Ends r) : guard (n + 1) (s ++ r) = .ok g r := by
  cases h with
  | @complex e s h =>
    exact guard_expression hr ((Written.simpleExpr (.complex h)).claim n hn r hr.stops).1
      (h.claim (n + 1) (by omega) r hr.stops.after).1
  | @negated e s h =>
    exact guard_expression hr ((Written.negatedExpr h).claim n hn r hr.stops).1
      (h.claim (n + 1) (by omega) r hr.stops).1
  | @compare o a b s w w' s' h1 hw hw' h2 =>
    simp only [List.length_append] at hn
    have hs : Starts (s' ++ r) := Starts.append h2.startClaim _
    have e1 := (h1.claim n (by omega) (w ++ (o.text ++ (w' ++ (s' ++ r)))) (stops_op hw)).1
    have e2 := (h2.claim n (by omega) r hr.stops).1
    have e0 : s ++ (w ++ (o.text ++ (w' ++ s'))) ++ r = s ++ (w ++ (o.text ++ (w' ++ (s' ++ r)))) := by
      simp
    rw [guard, infixExpr, e0]
    apply alt_ok
    rw [andThen_ok (show expression (n + 1) _ = .ok a _ from e1),
      andThen_ok (wsoc_append hw.1 (noWs_op_text o _)), andThen_ok (infixOp_append hw' hs),
      andThen_ok (wsoc_append hw' hs.noWs)]
    exact pmap_ok e2

/-! ## Sequences -/

theorem ListText.starts {El : α → Str → Prop} (hst : ∀ a s, El a s → Starts s) {as : List α} {s : Str}
    (h : ListText El as s) : Starts s := by
  cases h with
  | one h => exact hst _ _ h
  | more h => exact (hst _ _ h).append _

theorem ListText1.starts {El : α → Str → Prop} (hst : ∀ a s, El a s → Starts s) {as : List α} {s : Str}
    (h : ListText1 El as s) : Starts s := by
  cases h with
  | list h => exact h.starts hst
  | trailing h => exact (h.starts hst).append _

/-- How a parser reads the elements of a list, up to length `n` and followed by a text in `F`. -/
structure Reads (El : α → Str → Prop) (p : P α) (n : Nat) (F : Str → Prop) : Prop where
  starts : ∀ a s, El a s → Starts s
  read : ∀ a s r, El a s → s.length ≤ n → F r → p (s ++ r) = .ok a r
  comma : ∀ w r, Gap w → F (w ++ ',' :: r)

theorem ListText.ok {El : α → Str → Prop} {p : P α} {n : Nat} {F : Str → Prop} (hp : Reads El p n F)
    {as : List α} {s r : Str} (h : ListText El as s) (hn : s.length ≤ n) (hr : F r) :
    ListOk p as s r := by
  induction h with
  | one h => exact .one (hp.read _ _ _ h hn hr)
  | @more a as s w w' s' h hw hw' hl ih =>
    simp only [List.length_append, List.length_cons] at hn
    exact .more hw.1 hw' (hl.starts hp.starts) (hp.read _ _ _ h (by omega) (hp.comma _ _ hw))
      (ih (by omega))

theorem sequence_list {p : P α} {es : List α} {s w t : Str} (h : ListOk p es s (w ++ t)) (hw : Ws w)
    (ht : NoWs t) (hc : t.head? ≠ some ',') : sequence p (s ++ (w ++ t)) = .ok es (w ++ t) := by
  have h2 : sepComma (w ++ t) = .err := sepComma_err hw ht hc
  have h1 := h.sepList (andThen_err h2)
  have h3 : andThen (sepList1 sepComma p) (fun l => andThen (opt sepComma) fun _ => ret l)
      (s ++ (w ++ t)) = .ok es (w ++ t) := by
    rw [andThen_ok h1, andThen_ok (opt_err h2)]
    rfl
  rw [sequence, pmap_ok (opt_ok h3)]
  rfl

theorem sequence_trailing {p : P α} {es : List α} {s w1 w t : Str}
    (h : ListOk p es s (w1 ++ ',' :: (w ++ t))) (hw1 : Ws w1) (hw : Ws w) (ht : NoWs t)
    (hp : p t = .err) : sequence p (s ++ (w1 ++ ',' :: (w ++ t))) = .ok es t := by
  have h2 : sepComma (w1 ++ ',' :: (w ++ t)) = .ok () t := sepComma_append hw1 hw ht
  have h0 : nextElem p (w1 ++ ',' :: (w ++ t)) = .err := by
    rw [nextElem, andThen_ok h2]
    exact hp
  have h1 := h.sepList h0
  have h3 : andThen (sepList1 sepComma p) (fun l => andThen (opt sepComma) fun _ => ret l)
      (s ++ (w1 ++ ',' :: (w ++ t))) = .ok es t := by
    rw [andThen_ok h1, andThen_ok (opt_ok h2)]
    rfl
  rw [sequence, pmap_ok (opt_ok h3)]
  rfl

theorem sequence_nil {p : P α} {t : Str} (hp : p t = .err) : sequence p t = .ok [] t := by
  have h0 : sepList1 sepComma p t = .err := by
    rw [sepList1]
    exact andThen_err hp
  rw [sequence, pmap_ok (opt_err (andThen_err h0))]
  rfl

/-- A nonempty sequence is read up to the text `t` that follows it. -/
theorem ListText1.sequence {El : α → Str → Prop} {p : P α} {n : Nat} {F : Str → Prop}
    (hp : Reads El p n F) {as : List α} {s w t : Str} (h : ListText1 El as s) (hn : s.length ≤ n)
    (hw : Ws w) (hF : F (w ++ t)) (ht : NoWs t) (hc : t.head? ≠ some ',') (he : p t = .err) :
    ∃ r, sequence p (s ++ (w ++ t)) = .ok as r ∧ wsoc r = .ok () t := by
  cases h with
  | list h => exact ⟨w ++ t, sequence_list (h.ok hp hn hF) hw ht hc, wsoc_append hw ht⟩
  | @trailing s w1 h hw1 =>
    simp only [List.length_append, List.length_cons] at hn
    refine ⟨t, ?_, wsoc_none ht⟩
    have := sequence_trailing (h.ok hp (r := w1 ++ ',' :: (w ++ t)) (by omega) (hp.comma _ _ hw1)) hw1.1
      hw ht he
    simpa using this

/-- A sequence with white space around it is read up to the text `t` that follows it. -/
theorem SeqText.sequence {El : α → Str → Prop} {p : P α} {n : Nat} {F : Str → Prop}
    (hp : Reads El p n F) {as : List α} {s w0 w t : Str} (h : SeqText El as s) (hn : s.length ≤ n)
    (hw0 : Ws w0) (hw : Ws w) (hF : F (w ++ t)) (ht : NoWs t) (hc : t.head? ≠ some ',')
    (he : p t = .err) :
    ∃ r1 r2, wsoc (w0 ++ (s ++ (w ++ t))) = .ok () r1 ∧ sequence p r1 = .ok as r2 ∧
      wsoc r2 = .ok () t := by
  rcases h with ⟨rfl, rfl⟩ | h
  · refine ⟨t, t, ?_, sequence_nil he, wsoc_none ht⟩
    rw [List.nil_append, ← List.append_assoc]
    exact wsoc_append (hw0.append hw) ht
  · obtain ⟨r, h1, h2⟩ := h.sequence hp hn hw hF ht hc he
    exact ⟨_, r, wsoc_append hw0 ((h.starts hp.starts).append _).noWs, h1, h2⟩

theorem reads_guard (n : Nat) : Reads GuardText (guard (n + 1)) n Ends where
  starts _ _ h := h.starts
  read _ _ _ h hn hr := h.read hn hr
  comma _ _ hw := ends_comma hw

/-! ## Rules -/

theorem tag2 (a b : Char) (r : Str) : tag [a, b] (a :: b :: r) = .ok () r := tag_append [a, b] r


theorem noWs_arrow (r : Str) : NoWs (':' :: r) := noWs_cons (by decide) (by decide) (by decide)
theorem noWs_dot (r : Str) : NoWs ('.' :: r) := noWs_cons (by decide) (by decide) (by decide)

theorem guard_dot (n : Nat) (r : Str) : guard n ('.' :: r) = .err := guard_start (by simp; decide)

theorem RuleText.read {x : RuleAst} {s w r : Str} {n : Nat} (h : RuleText x s) (hn : s.length ≤ n)
    (hw : Gap w) (hr : ∀ d ∈ r.head?, d.isDigit = false) :
    ∃ r2, Verif.Parse.rule (n + 1) (s ++ (w ++ '.' :: r)) = .ok x r2 ∧ wsoc r2 = .ok () ('.' :: r) := by
  cases h with
  | @rule h b s w1 w2 s' h1 hw1 hw2 h2 =>
    simp only [List.length_append, List.length_cons] at hn
    obtain ⟨ra, e1, e2⟩ := h1.sequence (reads_guard n) (w := w1)
      (t := ':' :: '-' :: (w2 ++ (s' ++ (w ++ '.' :: r)))) (by omega) hw1.1 (ends_arrow hw1)
      (noWs_arrow _) (by simp) (guard_arrow _ _)
    obtain ⟨rb, rc, e3, e4, e5⟩ := h2.sequence (reads_guard n) (w0 := w2) (w := w) (t := '.' :: r)
      (by omega) hw2 hw.1 (ends_dot hw hr) (noWs_dot r) (by simp) (guard_dot _ _)
    refine ⟨rc, ?_, e5⟩
    have e0 : s ++ (w1 ++ ':' :: '-' :: (w2 ++ s')) ++ (w ++ '.' :: r) =
        s ++ (w1 ++ ':' :: '-' :: (w2 ++ (s' ++ (w ++ '.' :: r)))) := by simp
    rw [e0, Verif.Parse.rule, andThen_ok e1, andThen_ok e2,
      andThen_ok (tag2 ':' '-' (w2 ++ (s' ++ (w ++ '.' :: r)))), andThen_ok e3]
    exact pmap_ok e4
  | @noHead b w2 s' hw2 h2 =>
    simp only [List.length_append, List.length_cons] at hn
    obtain ⟨rb, rc, e3, e4, e5⟩ := h2.sequence (reads_guard n) (w0 := w2) (w := w) (t := '.' :: r)
      (by omega) hw2 hw.1 (ends_dot hw hr) (noWs_dot r) (by simp) (guard_dot _ _)
    refine ⟨rc, ?_, e5⟩
    have e0 : ':' :: '-' :: (w2 ++ s') ++ (w ++ '.' :: r) =
        ':' :: '-' :: (w2 ++ (s' ++ (w ++ '.' :: r))) := by simp
    rw [e0, Verif.Parse.rule, andThen_ok (sequence_nil (guard_arrow _ _)),
      andThen_ok (wsoc_none (noWs_arrow _)),
      andThen_ok (tag2 ':' '-' (w2 ++ (s' ++ (w ++ '.' :: r)))), andThen_ok e3]
    exact pmap_ok e4

/-- A fact is no rule. -/
theorem GuardText.not_rule {g : Guard} {s w r : Str} {n : Nat} (h : GuardText g s) (hn : s.length ≤ n)
    (hw : Gap w) (hr : ∀ d ∈ r.head?, d.isDigit = false) :
    rule (n + 1) (s ++ (w ++ '.' :: r)) = .err := by
  obtain ⟨ra, e1, e2⟩ := (ListText1.list (.one h)).sequence (reads_guard n) (w := w) (t := '.' :: r) hn
    hw.1 (ends_dot hw hr) (noWs_dot r) (by simp) (guard_dot _ _)
  rw [rule, andThen_ok e1, andThen_ok e2]
  exact andThen_err (tag_head (by simp))

end Verif.Parse
