import Verif.ParseComplex

/-!
# The induction over the grammar
-/
namespace Verif.Parse

set_option linter.unusedSimpArgs false

/-! ## Operators -/

theorem chainFold_snoc (a : Ex) (l : List (AOp × Ex)) (o : AOp) (e : Ex) :
    chainFold a (l ++ [(o, e)]) = .arithmetic o (chainFold a l) e := by
  simp [chainFold]

theorem mulOp_ok {o : AOp} (h : o = .mul ∨ o = .div) (r : Str) : mulOp (o.mark :: r) = .ok o r := by
  rcases h with rfl | rfl
  · exact alt_ok (pmap_ok (tag1 '*' r))
  · rw [mulOp, alt_err (pmap_err (tag_head (by simp [AOp.mark])))]
    exact pmap_ok (tag1 '/' r)

theorem addOp_ok {o : AOp} (h : o = .add ∨ o = .sub) (r : Str) : addOp (o.mark :: r) = .ok o r := by
  rcases h with rfl | rfl
  · exact alt_ok (pmap_ok (tag1 '+' r))
  · rw [addOp, alt_err (pmap_err (tag_head (by simp [AOp.mark])))]
    exact pmap_ok (tag1 '-' r)

theorem mulOp_err {r : Str} (h1 : r.head? ≠ some '*') (h2 : r.head? ≠ some '/') : mulOp r = .err := by
  rw [mulOp, alt_err (pmap_err (tag_head h1))]
  exact pmap_err (tag_head h2)

theorem addOp_err {r : Str} (h1 : r.head? ≠ some '+') (h2 : r.head? ≠ some '-') : addOp r = .err := by
  rw [addOp, alt_err (pmap_err (tag_head h1))]
  exact pmap_err (tag_head h2)

theorem ws_append_head {w' s : Str} (hw : Ws w') (hs : Starts s) : (w' ++ s).head? ≠ some '*' := by
  cases w' with
  | nil => exact hs.head_ne (by decide)
  | cons c w' =>
    have := hw.head c (by simp)
    simp only [List.cons_append, List.head?_cons, ne_eq, Option.some.injEq]
    rintro rfl
    revert this
    decide

theorem noWs_op (o : AOp) {w' s : Str} (hw : Ws w') (hs : Starts s) : NoWs (o.mark :: (w' ++ s)) := by
  intro c r' h
  simp only [List.cons.injEq] at h
  obtain ⟨rfl, rfl⟩ := h
  exact ⟨by cases o <;> decide, by cases o <;> decide, fun _ => ws_append_head hw hs⟩

theorem chainStep_ok {op : P AOp} {p : P Ex} {o : AOp} {w w' s r r' : Str} {e : Ex} (hw : Ws w)
    (hw' : Ws w') (hs : Starts s) (ho : op (o.mark :: (w' ++ (s ++ r))) = .ok o (w' ++ (s ++ r)))
    (hp : p (s ++ r) = .ok e r') :
    chainStep op p (w ++ o.mark :: (w' ++ (s ++ r))) = .ok (o, e) r' := by
  rw [chainStep, andThen_ok (wsoc_append hw (noWs_op o hw' (hs.append r))), andThen_ok ho,
    andThen_ok (wsoc_append hw' (hs.append r).noWs)]
  exact pmap_ok hp

theorem opsOf_mark {o : AOp} {w w' s : Str} {cs : List Char} (hw : Gap w) (hw' : Ws w') (hs : Starts s)
    (ho : o.mark ∈ cs) : OpsOf cs (w ++ o.mark :: (w' ++ s)) :=
  ⟨w, o.mark, w' ++ s, rfl, hw, ho, fun _ => ws_append_head hw' hs⟩

/-- What follows a summand is no multiplication. -/
theorem AfterAdd.chainStep_err {r : Str} (h : AfterAdd r) (p : P Ex) : chainStep mulOp p r = .err := by
  have hsh : ∃ r', wsoc r = .ok () r' ∧ r'.head? ≠ some '*' ∧ r'.head? ≠ some '/' := by
    rcases h with h | ⟨w, c, r', rfl, hw, hc, _⟩
    · rcases h with rfl | ⟨w, c, r', rfl, hw, hc⟩
      · exact ⟨[], wsoc_none noWs_nil, by simp, by simp⟩
      · have hc' : c ∈ [')', ',', '}', '=', '!', '<', '>', ']', ':', '.'] := by
          rcases hc with hc | ⟨rfl, _⟩ | ⟨rfl, _⟩
          · exact (by decide : ∀ c ∈ [')', ',', '}', '=', '!', '<', '>', ']'],
              c ∈ [')', ',', '}', '=', '!', '<', '>', ']', ':', '.']) c hc
          · decide
          · decide
        have hf := (by decide : ∀ c ∈ [')', ',', '}', '=', '!', '<', '>', ']', ':', '.'],
          isSpace c = false ∧ c ≠ '%' ∧ c ≠ '/' ∧ c ≠ '*') c hc'
        exact ⟨c :: r', wsoc_append hw.1 (noWs_cons hf.1 hf.2.1 hf.2.2.1), by simpa using hf.2.2.2,
          by simpa using hf.2.2.1⟩
    · have hf := (by decide : ∀ c ∈ ['+', '-'],
        isSpace c = false ∧ c ≠ '%' ∧ c ≠ '/' ∧ c ≠ '*') c hc
      exact ⟨c :: r', wsoc_append hw.1 (noWs_cons hf.1 hf.2.1 hf.2.2.1), by simpa using hf.2.2.2,
        by simpa using hf.2.2.1⟩
  obtain ⟨r', h1, h2, h3⟩ := hsh
  rw [chainStep, andThen_ok h1]
  exact andThen_err (mulOp_err h2 h3)

/-- What `wsoc` leaves at the end of an expression. -/
theorem Stops.wsoc {r : Str} (h : Stops r) : ∃ r', wsoc r = .ok () r' ∧
    ∀ c ∈ r'.head?, c ∈ [')', ',', '}', '=', '!', '<', '>', ']', ':', '.'] := by
  rcases h with rfl | ⟨w, c, r', rfl, hw, hc⟩
  · exact ⟨[], wsoc_none noWs_nil, by simp⟩
  · have hc' : c ∈ [')', ',', '}', '=', '!', '<', '>', ']', ':', '.'] := by
      rcases hc with hc | ⟨rfl, _⟩ | ⟨rfl, _⟩
      · exact (by decide : ∀ c ∈ [')', ',', '}', '=', '!', '<', '>', ']'],
          c ∈ [')', ',', '}', '=', '!', '<', '>', ']', ':', '.']) c hc
      · decide
      · decide
    have hf := (by decide : ∀ c ∈ [')', ',', '}', '=', '!', '<', '>', ']', ':', '.'],
      isSpace c = false ∧ c ≠ '%' ∧ c ≠ '/') c hc'
    exact ⟨c :: r', wsoc_append hw.1 (noWs_cons hf.1 hf.2.1 hf.2.2), by simpa using hc'⟩

/-- What follows an expression is no operator. -/
theorem Stops.chainStep_err {r : Str} (h : Stops r) (p : P Ex) : chainStep addOp p r = .err := by
  obtain ⟨r', h1, h2⟩ := h.wsoc
  rw [chainStep, andThen_ok h1]
  exact andThen_err (addOp_err (head_ne h2 (by decide)) (head_ne h2 (by decide)))

theorem Gap.ws {w : Str} (h : Gap w) : Ws w := h.1

/-! ## From simple expressions to expressions -/

theorem Written.simple_not_arith {e : Ex} {s : Str} (h : Written (.simple e) s) : ¬ e.IsArith := by
  rintro ⟨o, l, r, rfl⟩
  cases h with
  | basic hb => cases hb
  | complex hc => cases hc

theorem claim_simple_of_complex {e : Ex} {s : Str} (h : Claim (.complex e) s) : Claim (.simple e) s := by
  intro n hn r hr
  obtain ⟨h1, h2⟩ := h n hn r hr
  exact ⟨alt_ok h1, h2⟩

theorem bracketed_head {α : Type} {p : P α} {s : Str} (h : s.head? ≠ some '(') :
    bracketed ['('] [')'] p s = .err := bracketed_err h

theorem notParen_head {n : Nat} {s : Str} (h : s.head? ≠ some '(') : NotParen n s :=
  ⟨parenthesized_err h, bracketed_err h⟩

theorem BasicText.head_paren {e : Ex} {s : Str} (h : BasicText e s) (r : Str) :
    (s ++ r).head? ≠ some '(' := by
  cases h with
  | constant ht => exact ht.head_ne (by decide) (by decide) (by decide)
  | @number n sg fr es mk h0 hi =>
    have hh := number_head (r := fr ++ (es ++ (mk ++ r))) h0 hi
    simp only [List.append_assoc]
    intro hc
    rcases hh _ hc with h | h | h <;> exact absurd h (by decide)
  | @«variable» k => cases k <;> simp [VarKind.mark]
  | _ => simp

theorem claim_simple_of_basic {e : Ex} {s : Str} (h : BasicText e s) : Claim (.simple e) s := by
  intro n hn r hr
  refine ⟨?_, notParen_head (h.head_paren r)⟩
  rw [nonArith, alt_err (complex_err_basic h hr)]
  exact basic_append h hr

theorem claim_factor_of_simple {e : Ex} {s : Str} (ha : ¬ e.IsArith) (h : Claim (.simple e) s) :
    Claim (.factor e) s := by
  intro n hn r hr
  obtain ⟨h1, h2, h3⟩ := h n hn r hr
  refine ⟨?_, Or.inr ⟨h1, ha⟩⟩
  rw [factor, alt_err (pmap_err h3)]
  exact alt_ok h1

theorem claim_product_of_factor {e : Ex} {s : Str} (h : Claim (.factor e) s) :
    Claim (.product e) s := by
  intro n hn r hr
  obtain ⟨h1, h2⟩ := h n hn r hr
  refine ⟨⟨e, [], r, rfl, h1, .nil⟩, ?_⟩
  rcases h2 with h2 | h2
  · exact Or.inl h2
  · exact Or.inr (Or.inl h2)

theorem product_ok {e : Ex} {s : Str} (h : Claim (.product e) s) {n : Nat} (hn : s.length ≤ n) {r : Str}
    (hr : AfterAdd r) : product (both n).1 (both n).2 (s ++ r) = .ok e r := by
  obtain ⟨⟨a, l, r0, rfl, h1, h2⟩, _⟩ := h n hn r hr.after
  rw [product, andThen_ok h1]
  exact pmap_ok (h2.many0 (hr.chainStep_err _))

theorem claim_sum_of_product {e : Ex} {s : Str} (h : Claim (.product e) s) : Claim (.sum e) s := by
  intro n hn r hr
  exact ⟨⟨e, [], r, rfl, product_ok h hn hr, .nil⟩, (h n hn r hr.after).2⟩

theorem sum_ok {e : Ex} {s : Str} (h : Claim (.sum e) s) {n : Nat} (hn : s.length ≤ n) {r : Str}
    (hr : Stops r) : sum (both n).1 (both n).2 (s ++ r) = .ok e r := by
  obtain ⟨⟨a, l, r0, rfl, h1, h2⟩, _⟩ := h n hn r hr.afterAdd
  rw [sum, andThen_ok h1]
  exact pmap_ok (h2.many0 (hr.chainStep_err _))

theorem arithmetic_ok {e : Ex} {s r : Str} {ex ar : P Ex} (h : sum ex ar s = .ok e r)
    (he : e.IsArith) : arithmetic ex ar s = .ok e r := by
  obtain ⟨o, a, b, rfl⟩ := he
  rw [arithmetic, h]

theorem arithmetic_not {e : Ex} {s r : Str} {ex ar : P Ex} (h : sum ex ar s = .ok e r)
    (he : ¬ e.IsArith) : arithmetic ex ar s = .err := by
  rw [arithmetic, h]
  cases e with
  | arithmetic o a b => exact absurd ⟨o, a, b, rfl⟩ he
  | _ => rfl

theorem claim_expr_of_sum {e : Ex} {s : Str} (ha : e.IsArith) (h : Claim (.sum e) s) :
    Claim (.expr e) s := by
  intro n hn r hr
  have h1 := arithmetic_ok (sum_ok h hn hr) ha
  exact ⟨alt_ok h1, fun h' => absurd ha h', fun _ => h1, (h n hn r hr.afterAdd).2⟩

theorem claim_expr_of_simple {e : Ex} {s : Str} (ha : ¬ e.IsArith) (h : Claim (.simple e) s) :
    Claim (.expr e) s := by
  intro n hn r hr
  have h1 := arithmetic_not (sum_ok (claim_sum_of_product (claim_product_of_factor
    (claim_factor_of_simple ha h))) hn hr) ha
  obtain ⟨h2, h3, h4⟩ := h n hn r hr.after
  refine ⟨?_, fun _ => h1, fun h' => absurd h' ha, Or.inr (Or.inl ⟨h2, ha⟩)⟩
  show expr (both n).1 (both n).2 (s ++ r) = .ok e r
  rw [expr, alt_err h1, alt_err h3]
  exact h2

/-! ## Parentheses -/

theorem nonArith_paren_err {ex : P Ex} {r : Str} (h : tuple ex ('(' :: r) = .err) :
    nonArith ex ('(' :: r) = .err := by
  have hst : structureTag ('(' :: r) = .err := structureTag_err (by simp; decide)
  rw [nonArith, alt_err]
  · exact basic_err (by simp)
  · rw [complex, alt_err (aggregation_err (by simp)),
      alt_err (operation_err (Or.inl (keyword_err opTable_letters (by simp; decide)))),
      alt_err (atom_err (Or.inl hst)), alt_err (mapP_err_none hst (by simp)),
      alt_err (negation_err (by simp)), alt_err h]
    exact formatString_err_head (by simp)

/-- Something in parentheses is not a tuple. -/
theorem tuple_paren_err {ex : P Ex} {e : Ex} {w s w' r : Str} (hw : Ws w) (hs : Starts s)
    (hw' : Gap w') (h : ex (s ++ (w' ++ ')' :: r)) = .ok e (w' ++ ')' :: r)) :
    tuple ex ('(' :: (w ++ (s ++ (w' ++ ')' :: r)))) = .err := by
  rw [tuple]
  apply pmap_err
  rw [bracketed, andThen_ok (tag1 '(' _), andThen_ok (wsoc_append hw (hs.append _).noWs)]
  apply andThen_err
  rw [andThen_ok h, andThen_ok (wsoc_append hw'.1 (noWs_close (by decide) r))]
  exact andThen_err (tag_head (by simp))

/-- The expression is followed by something else than a closing parenthesis. -/
theorem bracketed_not_closed {p : P Ex} {e : Ex} {w s r r' r'' : Str} (hw : Ws w) (hs : Starts s)
    (h : p (s ++ r) = .ok e r') (hr : wsoc r' = .ok () r'') (hc : r''.head? ≠ some ')') :
    bracketed ['('] [')'] p ('(' :: (w ++ (s ++ r))) = .err := by
  rw [bracketed, andThen_ok (tag1 '(' _), andThen_ok (wsoc_append hw (hs.append _).noWs), andThen_ok h,
    andThen_ok hr]
  exact andThen_err (tag_head hc)

theorem bracketed_inner_err {α : Type} {p : P α} {w s r : Str} {op : Char} {cl : Str} (hw : Ws w)
    (hs : Starts s) (h : p (s ++ r) = .err) : bracketed [op] cl p (op :: (w ++ (s ++ r))) = .err := by
  rw [bracketed, andThen_ok (tag1 op _), andThen_ok (wsoc_append hw (hs.append _).noWs)]
  exact andThen_err h

theorem OpsOf.wsoc {cs : List Char} (hcs : ∀ c ∈ cs, c ∈ ['*', '/', '+', '-']) {r : Str}
    (h : OpsOf cs r) : ∃ r', wsoc r = .ok () r' ∧ ∀ c ∈ r'.head?, c ∈ ['*', '/', '+', '-'] := by
  obtain ⟨w, c, r', rfl, hw, hc, h4⟩ := h
  have hf := (by decide : ∀ c ∈ ['*', '/', '+', '-'], isSpace c = false ∧ c ≠ '%') c (hcs c hc)
  have hn : NoWs (c :: r') := by
    intro d r'' h
    simp only [List.cons.injEq] at h
    obtain ⟨rfl, rfl⟩ := h
    exact ⟨hf.1, hf.2, h4⟩
  exact ⟨c :: r', wsoc_append hw.1 hn, by simpa using hcs c hc⟩

/-- The first alternative of a factor fails on an arithmetic expression in parentheses. -/
theorem first_arith_paren {n : Nat} {e : Ex} {w s r : Str} (hw : Ws w) (hs : Starts s)
    (ha : e.IsArith) (h : First n e (s ++ r) r) :
    bracketed ['('] [')'] (nonArith (both n).1) ('(' :: (w ++ (s ++ r))) = .err := by
  rcases h with h | ⟨_, h⟩ | ⟨_, a, r', h, ho⟩
  · exact bracketed_inner_err hw hs h
  · exact absurd ha h
  · obtain ⟨r'', h1, h2⟩ := ho.wsoc (fun c hc => hc)
    exact bracketed_not_closed hw hs h h1 (head_ne h2 (by decide))

/-- It also fails on the first element of a tuple. -/
theorem first_tuple {n : Nat} {e : Ex} {w s w1 r : Str} (hw : Ws w) (hs : Starts s) (hw1 : Gap w1)
    (h : First n e (s ++ (w1 ++ ',' :: r)) (w1 ++ ',' :: r)) :
    bracketed ['('] [')'] (nonArith (both n).1) ('(' :: (w ++ (s ++ (w1 ++ ',' :: r)))) = .err := by
  have hws : wsoc (w1 ++ ',' :: r) = .ok () (',' :: r) :=
    wsoc_append hw1.1 (noWs_cons (by decide) (by decide) (by decide))
  rcases h with h | ⟨h, _⟩ | ⟨_, a, r', h, ho⟩
  · exact bracketed_inner_err hw hs h
  · exact bracketed_not_closed hw hs h hws (by simp)
  · obtain ⟨r'', h1, h2⟩ := ho.wsoc (fun c hc => hc)
    exact bracketed_not_closed hw hs h h1 (head_ne h2 (by decide))

theorem paren_stops {w' r : Str} (hw' : Gap w') : Stops (w' ++ ')' :: r) := stops_of hw' (by decide)

end Verif.Parse
