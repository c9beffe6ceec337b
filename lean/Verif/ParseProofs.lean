import Verif.ParseInduct

/-!
# Every written expression is read as what is written
-/
namespace Verif.Parse

set_option linter.unusedSimpArgs false

theorem claim_parenSimple {e : Ex} {w s w' : Str} (hw : Ws w) (hw' : Gap w') (hs : Starts s)
    (ha : ¬ e.IsArith) (ih : Claim (.simple e) s) :
    Claim (.factor (.parenthesized e)) ('(' :: (w ++ (s ++ (w' ++ [')'])))) := by
  intro n hn r hr
  simp only [List.length_cons, List.length_append] at hn
  obtain ⟨m, rfl⟩ : ∃ m, n = m + 1 := ⟨n - 1, by omega⟩
  simp only [List.cons_append, List.append_assoc, List.nil_append]
  have hex := (claim_expr_of_simple ha ih m (by omega) _ (paren_stops (r := r) hw')).1
  obtain ⟨h1, _⟩ := ih (m + 1) (by omega) _ (paren_stops (r := r) hw').after
  refine ⟨?_, Or.inl (nonArith_paren_err (tuple_paren_err hw hs hw' hex))⟩
  rw [factor]
  exact alt_ok (pmap_ok (bracketed_ok hs h1 hw hw'.1 (by decide)))

theorem claim_parenArith {e : Ex} {w s w' : Str} (hw : Ws w) (hw' : Gap w') (hs : Starts s)
    (ha : e.IsArith) (ih : Claim (.sum e) s) :
    Claim (.factor e) ('(' :: (w ++ (s ++ (w' ++ [')'])))) := by
  intro n hn r hr
  simp only [List.length_cons, List.length_append] at hn
  obtain ⟨m, rfl⟩ : ∃ m, n = m + 1 := ⟨n - 1, by omega⟩
  simp only [List.cons_append, List.append_assoc, List.nil_append]
  obtain ⟨hex, _, har, _⟩ := claim_expr_of_sum ha ih m (by omega) _ (paren_stops (r := r) hw')
  obtain ⟨_, _, _, hfirst⟩ := claim_expr_of_sum ha ih (m + 1) (by omega) _ (paren_stops (r := r) hw')
  have hna := nonArith_paren_err (tuple_paren_err hw hs hw' hex)
  refine ⟨?_, Or.inl hna⟩
  rw [factor, alt_err (pmap_err (first_arith_paren hw hs ha hfirst)), alt_err hna]
  exact bracketed_ok hs (har ha) hw hw'.1 (by decide)

theorem claim_parenExpr {e : Ex} {w s w' : Str} (hw : Ws w) (hw' : Gap w') (hs : Starts s)
    (ha : ¬ e.IsArith) (ih : Claim (.expr e) s) :
    Claim (.expr (.parenthesized e)) ('(' :: (w ++ (s ++ (w' ++ [')'])))) := by
  intro n hn r hr
  have hp : ¬ (Ex.parenthesized e).IsArith := by
    rintro ⟨o, a, b, h⟩
    cases h
  simp only [List.length_cons, List.length_append] at hn
  obtain ⟨m, rfl⟩ : ∃ m, n = m + 1 := ⟨n - 1, by omega⟩
  simp only [List.cons_append, List.append_assoc, List.nil_append]
  obtain ⟨hex, har, _, _⟩ := ih m (by omega) _ (paren_stops (r := r) hw')
  obtain ⟨_, _, _, hfirst⟩ := ih (m + 1) (by omega) _ (paren_stops (r := r) hw')
  have hna := nonArith_paren_err (tuple_paren_err hw hs hw' hex)
  have harith : arithmetic (both (m + 1)).1 (both (m + 1)).2
      ('(' :: (w ++ (s ++ (w' ++ ')' :: r)))) = .err := by
    rcases hfirst with h | ⟨h, _⟩ | ⟨h, _⟩
    · apply arithmetic_err
      rw [factor, alt_err (pmap_err (bracketed_inner_err hw hs h)), alt_err hna]
      exact bracketed_inner_err hw hs (har ha)
    · have hf : factor (both (m + 1)).1 (both (m + 1)).2 ('(' :: (w ++ (s ++ (w' ++ ')' :: r)))) =
          .ok (.parenthesized e) r := by
        rw [factor]
        exact alt_ok (pmap_ok (bracketed_ok hs h hw hw'.1 (by decide)))
      have hprod : product (both (m + 1)).1 (both (m + 1)).2 ('(' :: (w ++ (s ++ (w' ++ ')' :: r)))) =
          .ok (.parenthesized e) r := by
        rw [product, andThen_ok hf]
        exact pmap_ok (many0_nil (hr.afterAdd.chainStep_err _))
      have hsum : sum (both (m + 1)).1 (both (m + 1)).2 ('(' :: (w ++ (s ++ (w' ++ ')' :: r)))) =
          .ok (.parenthesized e) r := by
        rw [sum, andThen_ok hprod]
        exact pmap_ok (many0_nil (hr.chainStep_err _))
      exact arithmetic_not hsum hp
    · exact absurd h ha
  refine ⟨?_, fun _ => harith, fun h => absurd h hp, Or.inl hna⟩
  show expr (both (m + 1)).1 (both (m + 1)).2 _ = _
  rw [expr, alt_err harith]
  apply alt_ok
  exact pmap_ok (bracketed_ok hs hex hw hw'.1 (by decide))

theorem claim_mul {l e : Ex} {o : AOp} {s w w' s' : Str} (ho : o = .mul ∨ o = .div) (hw : Gap w)
    (hw' : Ws w') (hs' : Starts s') (ih : Claim (.product l) s) (ih' : Claim (.factor e) s') :
    Claim (.product (.arithmetic o l e)) (s ++ (w ++ o.mark :: (w' ++ s'))) := by
  intro n hn r hr
  simp only [List.length_cons, List.length_append] at hn
  simp only [List.cons_append, List.append_assoc, List.nil_append]
  have hops : OpsOf ['*', '/', '+', '-'] (w ++ o.mark :: (w' ++ (s' ++ r))) :=
    opsOf_mark hw hw' (hs'.append r) (by rcases ho with rfl | rfl <;> decide)
  obtain ⟨⟨a, L, r0, h1, h2, h3⟩, h4⟩ := ih n (by omega) _ (Or.inr hops)
  obtain ⟨h5, _⟩ := ih' n (by omega) r hr
  refine ⟨⟨a, L ++ [(o, e)], r0, ?_, h2, ?_⟩, ?_⟩
  · rw [chainFold_snoc, h1]
  · refine h3.snoc (chainStep_ok hw.1 hw' hs' (mulOp_ok ho _) h5) ?_
    simp only [List.length_append, List.length_cons]
    omega
  · have hA : (Ex.arithmetic o l e).IsArith := ⟨o, l, e, rfl⟩
    rcases h4 with h | ⟨h, _⟩ | ⟨_, a, r', h, hr'⟩
    · exact Or.inl h
    · exact Or.inr (Or.inr ⟨hA, l, _, h, hops⟩)
    · exact Or.inr (Or.inr ⟨hA, a, r', h, hr'⟩)

theorem claim_add {l e : Ex} {o : AOp} {s w w' s' : Str} (ho : o = .add ∨ o = .sub) (hw : Gap w)
    (hw' : Ws w') (hs' : Starts s') (ih : Claim (.sum l) s) (ih' : Claim (.product e) s') :
    Claim (.sum (.arithmetic o l e)) (s ++ (w ++ o.mark :: (w' ++ s'))) := by
  intro n hn r hr
  simp only [List.length_cons, List.length_append] at hn
  simp only [List.cons_append, List.append_assoc, List.nil_append]
  have hops : OpsOf ['+', '-'] (w ++ o.mark :: (w' ++ (s' ++ r))) :=
    opsOf_mark hw hw' (hs'.append r) (by rcases ho with rfl | rfl <;> decide)
  obtain ⟨⟨a, L, r0, h1, h2, h3⟩, h4⟩ := ih n (by omega) _ (Or.inr hops)
  have h5 := product_ok ih' (n := n) (by omega) hr
  refine ⟨⟨a, L ++ [(o, e)], r0, ?_, h2, ?_⟩, ?_⟩
  · rw [chainFold_snoc, h1]
  · refine h3.snoc (chainStep_ok hw.1 hw' hs' (addOp_ok ho _) h5) ?_
    simp only [List.length_append, List.length_cons]
    omega
  · have hA : (Ex.arithmetic o l e).IsArith := ⟨o, l, e, rfl⟩
    rcases h4 with h | ⟨h, _⟩ | ⟨_, a, r', h, hr'⟩
    · exact Or.inl h
    · exact Or.inr (Or.inr ⟨hA, l, _, h, hops.mono (by decide)⟩)
    · exact Or.inr (Or.inr ⟨hA, a, r', h, hr'⟩)

theorem claim_negation {e : Ex} {w s : Str} (hw : Ws w) (hs : Starts s) (ih : Claim (.expr e) s) :
    Claim (.negated (.negation e)) ('~' :: (w ++ s)) := by
  intro n hn r hr
  simp only [List.length_cons, List.length_append] at hn
  obtain ⟨m, rfl⟩ : ∃ m, n = m + 1 := ⟨n - 1, by omega⟩
  simp only [List.cons_append, List.append_assoc, List.nil_append]
  refine ⟨?_, notParen_head (by simp)⟩
  have hst : structureTag ('~' :: (w ++ (s ++ r))) = .err := structureTag_err (by simp; decide)
  rw [complex, alt_err (aggregation_err (by simp)),
    alt_err (operation_err (Or.inl (keyword_err opTable_letters (by simp; decide)))),
    alt_err (atom_err (Or.inl hst)), alt_err (mapP_err_none hst (by simp))]
  apply alt_ok
  rw [negation, andThen_ok (tag1 '~' _), andThen_ok (wsoc_append hw (hs.append r).noWs)]
  exact pmap_ok (ih m (by omega) r hr).1

theorem claim_negatedExpr {e : Ex} {s : Str} (ha : ¬ e.IsArith) (ih : Claim (.negated e) s) : Claim (.expr e) s := by
  intro n hn r hr
  obtain ⟨h1, h2⟩ := ih n hn r hr
  have hna : nonArith (both n).1 (s ++ r) = .ok e r := alt_ok h1
  have hf : factor (both n).1 (both n).2 (s ++ r) = .ok e r := by
    rw [factor, alt_err (pmap_err h2.2)]
    exact alt_ok hna
  have hprod : product (both n).1 (both n).2 (s ++ r) = .ok e r := by
    rw [product, andThen_ok hf]
    exact pmap_ok (many0_nil (hr.afterAdd.chainStep_err _))
  have hsum : sum (both n).1 (both n).2 (s ++ r) = .ok e r := by
    rw [sum, andThen_ok hprod]
    exact pmap_ok (many0_nil (hr.chainStep_err _))
  have harith := arithmetic_not hsum ha
  refine ⟨?_, fun _ => harith, fun h => absurd h ha, Or.inr (Or.inl ⟨hna, ha⟩)⟩
  show expr (both n).1 (both n).2 (s ++ r) = .ok e r
  rw [expr, alt_err harith, alt_err h2.1]
  exact hna

/-! ## Expressions with brackets -/

theorem expr_err_close (n : Nat) : ∀ cl ∈ [')', '}'], ∀ r, (both n).1 (cl :: r) = .err := by
  intro cl hcl r
  apply expr_err_head
  apply head_cons
  exact (by decide : ∀ c ∈ [')', '}'], ¬ Start c) cl hcl

theorem keyValue_err_close (n : Nat) :
    ∀ cl ∈ [')', '}'], ∀ r, keyValue (both n).1 (cl :: r) = .err := by
  intro cl hcl r
  rw [keyValue]
  exact andThen_err (expr_err_close n cl hcl r)

theorem keyValue_ok {n : Nat} {k v : Ex} {s w w' s' r : Str} (hw : Gap w) (hw' : Ws w')
    (hs' : Starts s') (hk : ∀ r, Stops r → (both n).1 (s ++ r) = .ok k r)
    (hv : (both n).1 (s' ++ r) = .ok v r) :
    keyValue (both n).1 ((s ++ (w ++ '=' :: (w' ++ s'))) ++ r) = .ok (k, v) r := by
  simp only [List.cons_append, List.append_assoc, List.nil_append]
  rw [keyValue, andThen_ok (hk _ (stops_of hw (by decide))),
    andThen_ok (wsoc_append hw.1 (noWs_cons (by decide) (by decide) (by decide))),
    andThen_ok (tag1 '=' _), andThen_ok (wsoc_append hw' (hs'.append r).noWs)]
  exact pmap_ok hv

theorem claim_aggregation {k nm w s w' : Str} {e : Ex} (hk : k ∈ aggTable) (hnm : SameName nm k)
    (hw : Ws w) (hw' : Gap w') (hs : Starts s) (ih : Claim (.expr e) s) :
    Claim (.complex (.aggregation (some k) e []))
      ('#' :: nm ++ '(' :: (w ++ (s ++ (w' ++ [')'])))) := by
  intro n hn r hr
  simp only [List.length_cons, List.length_append] at hn
  obtain ⟨m, rfl⟩ : ∃ m, n = m + 1 := ⟨n - 1, by omega⟩
  simp only [List.cons_append, List.append_assoc, List.nil_append]
  refine ⟨?_, notParen_head (by simp)⟩
  rw [complex]
  apply alt_ok
  have hkw : keyword aggTable (nm ++ '(' :: (w ++ (s ++ (w' ++ ')' :: r)))) =
      .ok k ('(' :: (w ++ (s ++ (w' ++ ')' :: r)))) :=
    keyword_hit aggTable_letters aggTable_prefix hk hnm (by simp; decide)
  rw [aggregation, andThen_ok (tag1 '#' _), andThen_ok (alt_ok (pmap_ok hkw))]
  refine bracketed_ok hs ?_ hw hw'.1 (by decide)
  rw [andThen_ok (ih m (by omega) _ (paren_stops hw')).1]
  have hc : sepComma (w' ++ ')' :: r) = .err :=
    sepComma_err hw'.1 (noWs_close (by decide) r) (by simp)
  exact pmap_ok (opt_err (andThen_err hc))

theorem claim_aggregationDistinct {k nm w s w1 w2 s' w' : Str} {e : Ex} {es : List Ex}
    (hk : k ∈ aggTable) (hnm : SameName nm k) (hw : Ws w) (hw1 : Gap w1) (hw2 : Ws w2) (hw' : Gap w')
    (hs : Starts s) (hs' : Starts s') (ih : Claim (.expr e) s) (ih' : Claim (.list es) s') :
    Claim (.complex (.aggregation (some k) e es))
      ('#' :: nm ++ '(' :: (w ++ (s ++ (w1 ++ ',' :: (w2 ++ (s' ++ (w' ++ [')']))))))) := by
  intro n hn r hr
  simp only [List.length_cons, List.length_append] at hn
  obtain ⟨m, rfl⟩ : ∃ m, n = m + 1 := ⟨n - 1, by omega⟩
  simp only [List.cons_append, List.append_assoc, List.nil_append]
  refine ⟨?_, notParen_head (by simp)⟩
  rw [complex]
  apply alt_ok
  have hkw : keyword aggTable (nm ++ '(' :: (w ++ (s ++ (w1 ++ ',' :: (w2 ++ (s' ++ (w' ++ ')' :: r))))))) =
      .ok k ('(' :: (w ++ (s ++ (w1 ++ ',' :: (w2 ++ (s' ++ (w' ++ ')' :: r))))))) :=
    keyword_hit aggTable_letters aggTable_prefix hk hnm (by simp; decide)
  rw [aggregation, andThen_ok (tag1 '#' _), andThen_ok (alt_ok (pmap_ok hkw))]
  have hb := bracketed_ok (s := s ++ (w1 ++ ',' :: (w2 ++ s'))) (op := '(') (cl := ')') (w := w)
    (w' := w') (r := r) (a := Ex.aggregation (some k) e es)
    (p := andThen (both (m + 1)).1 fun e => pmap (fun d => Ex.aggregation (some k) e (d.getD []))
      (opt (andThen sepComma fun _ => sepList1 sepComma (both (m + 1)).1)))
    (hs.append _) ?_ hw hw'.1 (by decide)
  · simpa using hb
  · have hl := (ih' m (by omega) _ (paren_stops (r := r) hw')).sepList
      (nextElem_err_close hw'.1 (by decide))
    simp only [List.cons_append, List.append_assoc, List.nil_append]
    rw [andThen_ok (ih m (by omega) _ (stops_of hw1 (by decide))).1]
    refine pmap_ok (f := fun d => Ex.aggregation (some k) e (d.getD [])) (a := some es) (opt_ok ?_)
    rw [andThen_ok (sepComma_append hw1.1 hw2 (hs'.append _).noWs)]
    exact hl

theorem claim_operation {k nm w s w' : Str} {es : List Ex} (hk : k ∈ opTable) (hnm : SameName nm k)
    (hw : Ws w) (hw' : Gap w') (ih : Claim (.seq es) s) :
    Claim (.complex (.operation k es)) (nm ++ '(' :: (w ++ (s ++ (w' ++ [')'])))) := by
  intro n hn r hr
  simp only [List.length_cons, List.length_append] at hn
  obtain ⟨m, rfl⟩ : ∃ m, n = m + 1 := ⟨n - 1, by omega⟩
  simp only [List.cons_append, List.append_assoc, List.nil_append]
  obtain ⟨c, nm', hnm', hc⟩ := sameName_starts hk hnm
  have hne : ∀ d, isAlpha d = false →
      (nm ++ '(' :: (w ++ (s ++ (w' ++ ')' :: r)))).head? ≠ some d := by
    intro d hd
    rw [hnm']
    simp only [List.cons_append, List.head?_cons, ne_eq, Option.some.injEq]
    rintro rfl
    rw [hc] at hd
    exact Bool.noConfusion hd
  refine ⟨?_, notParen_head (hne _ (by decide))⟩
  rw [complex, alt_err (aggregation_err (hne _ (by decide)))]
  apply alt_ok
  have hkw : keyword opTable (nm ++ '(' :: (w ++ (s ++ (w' ++ ')' :: r)))) =
      .ok k ('(' :: (w ++ (s ++ (w' ++ ')' :: r)))) :=
    keyword_hit opTable_letters opTable_prefix hk hnm (by simp; decide)
  rw [operation, andThen_ok hkw]
  exact pmap_ok (SeqOk.bracketed (ih m (by omega)) hw hw' (by decide))

theorem claim_atom {t : Tag} {ts w s w' : Str} {es : List Ex} (ht : TagText t ts) (hb : t.NotBuiltin)
    (hw : Ws w) (hw' : Gap w') (hs : Starts s) (ih : Claim (.list es) s) :
    Claim (.complex (.atom t es)) (ts ++ '(' :: (w ++ (s ++ (w' ++ [')'])))) := by
  intro n hn r hr
  simp only [List.length_cons, List.length_append] at hn
  obtain ⟨m, rfl⟩ : ∃ m, n = m + 1 := ⟨n - 1, by omega⟩
  simp only [List.cons_append, List.append_assoc, List.nil_append]
  refine ⟨?_, notParen_head (ht.head_ne (by decide) (by decide) (by decide))⟩
  rw [complex, alt_err (aggregation_err (ht.head_ne (by decide) (by decide) (by decide))),
    alt_err (operation_err (keyword_tag ht (by simp; decide) (Or.inr hb)))]
  apply alt_ok
  rw [atom, andThen_ok (structureTag_append ht (tagFollow_paren _))]
  apply pmap_ok
  have hl := (ih m (by omega) _ (paren_stops (r := r) hw')).sepList
    (nextElem_err_close hw'.1 (by decide))
  exact bracketed_ok hs hl hw hw'.1 (by decide)

theorem claim_map {w s w' : Str} {kvs : List (Ex × Ex)} (hw : Ws w) (hw' : Gap w')
    (ih : Claim (.pairSeq kvs) s) :
    Claim (.complex (.map none kvs)) ('{' :: (w ++ (s ++ (w' ++ ['}'])))) := by
  intro n hn r hr
  simp only [List.length_cons, List.length_append] at hn
  obtain ⟨m, rfl⟩ : ∃ m, n = m + 1 := ⟨n - 1, by omega⟩
  simp only [List.cons_append, List.append_assoc, List.nil_append]
  refine ⟨?_, notParen_head (by simp)⟩
  have hst : structureTag ('{' :: (w ++ (s ++ (w' ++ '}' :: r)))) = .err :=
    structureTag_err (by simp; decide)
  rw [complex, alt_err (aggregation_err (by simp)),
    alt_err (operation_err (Or.inl (keyword_err opTable_letters (by simp; decide)))),
    alt_err (atom_err (Or.inl hst))]
  apply alt_ok
  rw [mapP, andThen_ok (opt_err (andThen_err hst))]
  exact pmap_ok (SeqOk.bracketed (ih m (by omega)) hw hw' (by decide))

theorem claim_taggedMap {t : Tag} {ts w0 w s w' : Str} {kvs : List (Ex × Ex)} (ht : TagText t ts)
    (hw0 : Gap w0) (hw : Ws w) (hw' : Gap w') (ih : Claim (.pairSeq kvs) s) :
    Claim (.complex (.map (some t) kvs)) (ts ++ (w0 ++ '{' :: (w ++ (s ++ (w' ++ ['}']))))) := by
  intro n hn r hr
  simp only [List.length_cons, List.length_append] at hn
  obtain ⟨m, rfl⟩ : ∃ m, n = m + 1 := ⟨n - 1, by omega⟩
  simp only [List.cons_append, List.append_assoc, List.nil_append]
  have htf := tagFollow_gap hw0 (w ++ (s ++ (w' ++ '}' :: r)))
  have hst := structureTag_append ht htf
  have hpar : (w0 ++ '{' :: (w ++ (s ++ (w' ++ '}' :: r)))).head? ≠ some '(' := by
    cases w0 with
    | nil => simp
    | cons c w0 =>
      have := hw0.head c (by simp)
      simp only [List.cons_append, List.head?_cons, ne_eq, Option.some.injEq]
      rintro rfl
      revert this
      decide
  refine ⟨?_, notParen_head (ht.head_ne (by decide) (by decide) (by decide))⟩
  rw [complex, alt_err (aggregation_err (ht.head_ne (by decide) (by decide) (by decide))),
    alt_err (operation_err (keyword_tag ht htf.1 (Or.inl hpar))),
    alt_err (atom_err (Or.inr ⟨t, _, hst, hpar⟩))]
  apply alt_ok
  have hws : wsoc (w0 ++ '{' :: (w ++ (s ++ (w' ++ '}' :: r)))) =
      .ok () ('{' :: (w ++ (s ++ (w' ++ '}' :: r)))) :=
    wsoc_append hw0.1 (noWs_cons (by decide) (by decide) (by decide))
  have h1 : andThen structureTag (fun t => andThen (opt wsoc) fun _ => ret t)
      (ts ++ (w0 ++ '{' :: (w ++ (s ++ (w' ++ '}' :: r))))) =
      .ok t ('{' :: (w ++ (s ++ (w' ++ '}' :: r)))) := by
    rw [andThen_ok hst, andThen_ok (opt_ok hws)]
    rfl
  rw [mapP, andThen_ok (opt_ok h1)]
  exact pmap_ok (SeqOk.bracketed (ih m (by omega)) hw hw' (by decide))

theorem claim_tuple {w s w1 w2 s' w' : Str} {e : Ex} {es : List Ex} (hw : Ws w) (hw1 : Gap w1)
    (hw2 : Ws w2) (hw' : Gap w') (hs : Starts s) (ih : Claim (.expr e) s) (ih' : Claim (.seq es) s') :
    Claim (.complex (.tuple (e :: es)))
      ('(' :: (w ++ (s ++ (w1 ++ ',' :: (w2 ++ (s' ++ (w' ++ [')']))))))) := by
  intro n hn r hr
  simp only [List.length_cons, List.length_append] at hn
  obtain ⟨m, rfl⟩ : ∃ m, n = m + 1 := ⟨n - 1, by omega⟩
  simp only [List.cons_append, List.append_assoc, List.nil_append]
  have hstop : Stops (w1 ++ ',' :: (w2 ++ (s' ++ (w' ++ ')' :: r)))) := stops_of hw1 (by decide)
  have hex := (ih m (by omega) _ hstop).1
  obtain ⟨_, _, _, hfirst⟩ := ih (m + 1) (by omega) _ hstop
  have hcomma : wsoc (w1 ++ ',' :: (w2 ++ (s' ++ (w' ++ ')' :: r)))) =
      .ok () (',' :: (w2 ++ (s' ++ (w' ++ ')' :: r)))) :=
    wsoc_append hw1.1 (noWs_cons (by decide) (by decide) (by decide))
  refine ⟨?_, ?_, first_tuple hw hs hw1 hfirst⟩
  · have hst : structureTag ('(' :: (w ++ (s ++ (w1 ++ ',' :: (w2 ++ (s' ++ (w' ++ ')' :: r))))))) =
        .err := structureTag_err (by simp; decide)
    rw [complex, alt_err (aggregation_err (by simp)),
      alt_err (operation_err (Or.inl (keyword_err opTable_letters (by simp; decide)))),
      alt_err (atom_err (Or.inl hst)), alt_err (mapP_err_none hst (by simp)),
      alt_err (negation_err (by simp))]
    apply alt_ok
    obtain ⟨r1, r2, h1, h2, h3⟩ := ih' m (by omega) w2 w' ')' r hw2 hw' (by decide)
    rw [tuple]
    refine pmap_ok (f := Ex.tuple) (a := e :: es) ?_
    have h4 : (andThen (both (m + 1)).1 fun e => andThen wsoc fun _ => andThen (tag [',']) fun _ =>
        andThen wsoc fun _ => pmap (e :: ·) (sequence (both (m + 1)).1))
        (s ++ (w1 ++ ',' :: (w2 ++ (s' ++ (w' ++ ')' :: r))))) = .ok (e :: es) r2 := by
      rw [andThen_ok hex, andThen_ok hcomma, andThen_ok (tag1 ',' _), andThen_ok h1]
      exact pmap_ok h2
    rw [bracketed, andThen_ok (tag1 '(' _), andThen_ok (wsoc_append hw (hs.append _).noWs),
      andThen_ok h4, andThen_ok h3, andThen_ok (tag1 ')' r)]
    rfl
  · rw [parenthesized]
    exact pmap_err (bracketed_not_closed hw hs hex hcomma (by simp))

/-! ## Format strings -/

/-- The loop of `multiline_fstring`. -/
theorem multilineChunk_go {c q : Str} (h1 : '{' ∉ c) (h2 : '}' ∉ c)
    (hq : ['"', '"', '"'] <+: q ∨ q.head? = some '{' ∨ q.head? = some '}')
    (h3 : ∀ (a b : Str), c = a ++ b → b ≠ [] → ¬ ['"', '"', '"'] <+: (b ++ q)) :
    multilineChunk.go (c ++ q) = some (c, q) := by
  induction c with
  | nil =>
    cases q with
    | nil => simp at hq
    | cons d q =>
      have : (['"', '"', '"'].isPrefixOf (d :: q) || d == '{' || d == '}') = true := by
        rcases hq with h | h | h
        · rw [List.isPrefixOf_iff_prefix.mpr h]
          rfl
        · simp only [List.head?_cons, Option.some.injEq] at h
          subst h
          simp
        · simp only [List.head?_cons, Option.some.injEq] at h
          subst h
          simp
      rw [List.nil_append, multilineChunk.go, if_pos this]
  | cons d c ih =>
    have hne : (['"', '"', '"'].isPrefixOf (d :: (c ++ q)) || d == '{' || d == '}') = false := by
      rw [isPrefixOf_false (s := d :: (c ++ q)) (h3 [] (d :: c) rfl (by simp))]
      have e1 : d ≠ '{' := by
        rintro rfl
        simp at h1
      have e2 : d ≠ '}' := by
        rintro rfl
        simp at h2
      simp [e1, e2]
    rw [List.cons_append, multilineChunk.go, hne]
    have hih := ih (fun h => h1 (by simp [h])) (fun h => h2 (by simp [h]))
      (fun a b hab hb => h3 (d :: a) b (by simp [hab]) hb)
    simp [hih]

theorem multilineChunk_append {c q : Str} (hc : c ≠ []) (h1 : '{' ∉ c) (h2 : '}' ∉ c)
    (hq : ['"', '"', '"'] <+: q ∨ q.head? = some '{' ∨ q.head? = some '}')
    (h3 : ∀ (a b : Str), c = a ++ b → b ≠ [] → ¬ ['"', '"', '"'] <+: (b ++ q)) :
    multilineChunk (c ++ q) = .ok c q := by
  cases c with
  | nil => exact absurd rfl hc
  | cons d c =>
    have hne : (['"', '"', '"'].isPrefixOf (d :: (c ++ q)) || d == '{' || d == '}') = false := by
      rw [isPrefixOf_false (s := d :: (c ++ q)) (h3 [] (d :: c) rfl (by simp))]
      have e1 : d ≠ '{' := by
        rintro rfl
        simp at h1
      have e2 : d ≠ '}' := by
        rintro rfl
        simp at h2
      simp [e1, e2]
    have hgo := multilineChunk_go (c := c) (q := q) (fun h => h1 (by simp [h]))
      (fun h => h2 (by simp [h])) hq (fun a b hab hb => h3 (d :: a) b (by simp [hab]) hb)
    rw [List.cons_append, multilineChunk, hne]
    simp [hgo]

theorem chunk_text {m : Bool} {c q : Str} (hc : c ≠ []) (h1 : '{' ∉ c) (h2 : '}' ∉ c)
    (h3 : m = false → '"' ∉ c) (h4 : m = true → Absent ['"', '"', '"'] c)
    (hq : (∃ r, q = closing m ++ r) ∧ (m = true → Absent ['"', '"', '"'] (c ++ ['"', '"'])) ∨
      q.head? = some '{' ∨ q.head? = some '}') : chunk m (c ++ q) = .ok c q := by
  cases m with
  | false =>
    refine takeWhile1_append hc ?_ ?_
    · intro d hd
      have e1 : d ≠ '"' := by
        rintro rfl
        exact h3 rfl hd
      have e2 : d ≠ '{' := by
        rintro rfl
        exact h1 hd
      have e3 : d ≠ '}' := by
        rintro rfl
        exact h2 hd
      simp [e1, e2, e3]
    · intro d hd
      rcases hq with ⟨⟨r, rfl⟩, _⟩ | hq | hq
      · simp only [closing, List.cons_append, List.head?_cons, Option.mem_def,
          Option.some.injEq] at hd
        subst hd
        decide
      · rw [hq] at hd
        simp only [Option.mem_def, Option.some.injEq] at hd
        subst hd
        decide
      · rw [hq] at hd
        simp only [Option.mem_def, Option.some.injEq] at hd
        subst hd
        decide
  | true =>
    refine multilineChunk_append hc h1 h2 ?_ ?_
    · rcases hq with ⟨⟨r, rfl⟩, _⟩ | hq | hq
      · exact Or.inl ⟨r, rfl⟩
      · exact Or.inr (Or.inl hq)
      · exact Or.inr (Or.inr hq)
    · intro a b hab hb hp
      rcases hq with ⟨⟨r, rfl⟩, hq⟩ | hq
      · -- the mark would have to lie within `b` and the first two quotes
        have hp2 : ['"', '"', '"'] <+: b ++ ['"', '"'] := by
          have e1 : b ++ (closing true ++ r) = (b ++ ['"', '"']) ++ ('"' :: r) := by
            simp [closing]
          rw [e1] at hp
          refine List.prefix_of_prefix_length_le hp (List.prefix_append _ _) ?_
          cases b with
          | nil => exact absurd rfl hb
          | cons x b => simp
        obtain ⟨b', hb'⟩ := hp2
        exact hq rfl a b' (by rw [hab, List.append_assoc, ← hb', List.append_assoc])
      · have hd : ∃ (d : Char) (q' : Str), q = d :: q' ∧ d ≠ '"' := by
          cases q with
          | nil => simp at hq
          | cons d q =>
            refine ⟨d, q, rfl, ?_⟩
            rintro rfl
            simp at hq
        obtain ⟨d, q', rfl, hd⟩ := hd
        have hp2 : ['"', '"', '"'] <+: b := prefix_extend (by simpa using hd) hp
        obtain ⟨b', hb'⟩ := hp2
        exact h4 rfl a b' (by rw [hab, ← hb', List.append_assoc])

theorem chunk_err {m : Bool} {q : Str}
    (hq : (∃ r, q = closing m ++ r) ∨ q.head? = some '{' ∨ q.head? = some '}') :
    chunk m q = .err := by
  cases m with
  | false =>
    apply takeWhile1_err
    intro d hd
    rcases hq with ⟨r, rfl⟩ | hq | hq
    · simp only [closing, List.cons_append, List.head?_cons, Option.mem_def, Option.some.injEq] at hd
      subst hd
      decide
    · rw [hq] at hd
      simp only [Option.mem_def, Option.some.injEq] at hd
      subst hd
      decide
    · rw [hq] at hd
      simp only [Option.mem_def, Option.some.injEq] at hd
      subst hd
      decide
  | true =>
    cases q with
    | nil => rfl
    | cons d q =>
      have : (['"', '"', '"'].isPrefixOf (d :: q) || d == '{' || d == '}') = true := by
        rcases hq with ⟨r, h⟩ | h | h
        · have : ['"', '"', '"'] <+: d :: q := ⟨r, h.symm⟩
          rw [List.isPrefixOf_iff_prefix.mpr this]
          rfl
        · simp only [List.head?_cons, Option.some.injEq] at h
          subst h
          simp
        · simp only [List.head?_cons, Option.some.injEq] at h
          subst h
          simp
      rw [chunk, multilineChunk, if_pos this]

/-- How the inside of a format string continues. -/
theorem elements_head {m : Bool} {l : List (FEl Ex)} {s : Str} (h : Written (.elements m l) s) :
    (l = [] ∧ s = []) ∨ (∃ c l', l = .text c :: l') ∨ s.head? = some '{' ∨ s.head? = some '}' := by
  cases h with
  | noElements => exact Or.inl ⟨rfl, rfl⟩
  | text => exact Or.inr (Or.inl ⟨_, _, rfl⟩)
  | openBrace => exact Or.inr (Or.inr (Or.inl rfl))
  | closeBrace => exact Or.inr (Or.inr (Or.inr rfl))
  | element => exact Or.inr (Or.inr (Or.inl rfl))

theorem claim_text {m : Bool} {c s : Str} {l : List (FEl Ex)} (hc : c ≠ []) (h1 : '{' ∉ c)
    (h2 : '}' ∉ c) (h3 : m = false → '"' ∉ c) (h4 : m = true → Absent ['"', '"', '"'] c)
    (h5 : m = true → l = [] → Absent ['"', '"', '"'] (c ++ ['"', '"'])) (hl : NoText l)
    (hw : Written (.elements m l) s) (ih : Claim (.elements m l) s) :
    Claim (.elements m (.text c :: l)) (c ++ s) := by
  intro n hn r hr
  simp only [List.length_append] at hn
  rw [List.append_assoc]
  refine .cons ?_ ?_ (ih n (by omega) r hr)
  · rw [fElement]
    apply alt_ok
    apply pmap_ok
    refine chunk_text hc h1 h2 h3 h4 ?_
    rcases elements_head hw with ⟨rfl, rfl⟩ | ⟨c', l', rfl⟩ | h | h
    · exact Or.inl ⟨⟨r, rfl⟩, fun hm => h5 hm rfl⟩
    · exact absurd rfl (hl c')
    · cases s with
      | nil => simp at h
      | cons d s => exact Or.inr (Or.inl (by simpa using h))
    · cases s with
      | nil => simp at h
      | cons d s => exact Or.inr (Or.inr (by simpa using h))
  · cases c with
    | nil => exact absurd rfl hc
    | cons d c =>
      simp only [List.length_append, List.length_cons]
      omega

theorem claim_openBrace {m : Bool} {s : Str} {l : List (FEl Ex)} (ih : Claim (.elements m l) s) :
    Claim (.elements m (.openBrace :: l)) ('{' :: '{' :: s) := by
  intro n hn r hr
  simp only [List.length_cons] at hn
  refine .cons ?_ ?_ (ih n (by omega) r hr)
  · rw [fElement, alt_err (pmap_err (chunk_err (Or.inr (Or.inl (by simp)))))]
    exact alt_ok (pmap_ok (tag_append ['{', '{'] _))
  · simp only [List.length_append, List.length_cons, List.cons_append]
    omega

theorem claim_closeBrace {m : Bool} {s : Str} {l : List (FEl Ex)} (ih : Claim (.elements m l) s) :
    Claim (.elements m (.closeBrace :: l)) ('}' :: '}' :: s) := by
  intro n hn r hr
  simp only [List.length_cons] at hn
  refine .cons ?_ ?_ (ih n (by omega) r hr)
  · rw [fElement, alt_err (pmap_err (chunk_err (Or.inr (Or.inr (by simp))))),
      alt_err (pmap_err (tag_head (by simp)))]
    exact alt_ok (pmap_ok (tag_append ['}', '}'] _))
  · simp only [List.length_append, List.length_cons, List.cons_append]
    omega

theorem claim_element {m : Bool} {t s : Str} {e : Ex} {l : List (FEl Ex)} (ht : t.head? ≠ some '{')
    (hs : Starts t) (ih' : Claim (.expr e) t) (ih : Claim (.elements m l) s) :
    Claim (.elements m (.expr e :: l)) ('{' :: (t ++ '}' :: s)) := by
  intro n hn r hr
  simp only [List.length_cons, List.length_append] at hn
  simp only [List.cons_append, List.append_assoc, List.nil_append]
  refine .cons ?_ ?_ (ih n (by omega) r hr)
  · rw [fElement, alt_err (pmap_err (chunk_err (Or.inr (Or.inl (by simp))))), alt_err, alt_err]
    · have h := (ih' n (by omega) ('}' :: (s ++ (closing m ++ r))) (stops_of gap_nil (by decide))).1
      rw [andThen_ok (tag1 '{' _), andThen_ok h, andThen_ok (tag1 '}' _)]
      rfl
    · exact pmap_err (tag_head (by simp))
    · refine pmap_err (tag_second ?_)
      obtain ⟨c, t', rfl, _⟩ := hs
      simpa using ht
  · simp only [List.length_append, List.length_cons, List.cons_append]
    omega

theorem fElement_err_close {m : Bool} {ex : P Ex} (r : Str) :
    fElement (chunk m) ex (closing m ++ r) = .err := by
  have hh : ∀ c, c ≠ '"' → (closing m ++ r).head? ≠ some c := by
    intro c hc
    cases m <;> simpa [closing, eq_comm] using hc
  rw [fElement, alt_err (pmap_err (chunk_err (Or.inl ⟨r, rfl⟩))),
    alt_err (pmap_err (tag_head (hh _ (by decide)))), alt_err (pmap_err (tag_head (hh _ (by decide))))]
  exact andThen_err (tag_head (hh _ (by decide)))

/-- Reaching the format string alternative. -/
theorem complex_fstring {ex : P Ex} {r : Str} :
    complex ex ('f' :: '"' :: r) = formatString ex ('f' :: '"' :: r) := by
  have ht : TagText (.plain ['f']) ['f'] := .plain ⟨'f', [], rfl, by decide, by simp⟩
  have htf : TagFollow ('"' :: r) := by
    refine ⟨by simp; decide, ?_⟩
    intro r' h
    simp at h
  have hst : structureTag ('f' :: '"' :: r) = .ok (.plain ['f']) ('"' :: r) :=
    structureTag_append ht htf
  have hop : operation ex ('f' :: '"' :: r) = .err :=
    operation_err (keyword_tag ht htf.1 (Or.inl (by simp)))
  have hws : wsoc ('"' :: r) = .ok () ('"' :: r) :=
    wsoc_none (noWs_cons (by decide) (by decide) (by decide))
  rw [complex, alt_err (aggregation_err (by simp)), alt_err hop,
    alt_err (atom_err (Or.inr ⟨_, _, hst, by simp⟩)), alt_err (mapP_err_some hst hws (by simp)),
    alt_err (negation_err (by simp)), alt_err (tuple_err (by simp))]

theorem elements_false_head {l : List (FEl Ex)} {s : Str} (h : Written (.elements false l) s) :
    s.head? ≠ some '"' := by
  cases h with
  | noElements => simp
  | @text _ c s l hc _ _ h3 =>
    cases c with
    | nil => exact absurd rfl hc
    | cons d c =>
      simp only [List.cons_append, List.head?_cons, ne_eq, Option.some.injEq]
      rintro rfl
      exact h3 rfl (by simp)
  | openBrace => simp
  | closeBrace => simp
  | element => simp

theorem claim_formatString {s : Str} {l : List (FEl Ex)} (hw : Written (.elements false l) s)
    (ih : Claim (.elements false l) s) :
    Claim (.complex (.formatString l)) ('f' :: '"' :: s ++ ['"']) := by
  intro n hn r hr
  simp only [List.length_cons, List.length_append] at hn
  obtain ⟨m, rfl⟩ : ∃ m, n = m + 1 := ⟨n - 1, by omega⟩
  have hq : r.head? ≠ some '"' := head_ne hr.head (by decide)
  simp only [List.cons_append, List.append_assoc, List.nil_append]
  refine ⟨?_, notParen_head (by simp)⟩
  rw [complex_fstring, formatString, alt_err]
  · have ht : tag ['f', '"'] ('f' :: '"' :: (s ++ '"' :: r)) = .ok () (s ++ '"' :: r) :=
      tag_append ['f', '"'] _
    have hm := (ih m (by omega) r hq).many0 (fElement_err_close (m := false) r)
    rw [andThen_ok ht]
    refine (andThen_ok (a := l) (r := '"' :: r) hm).trans ?_
    rw [andThen_ok (tag1 '"' r)]
    rfl
  · apply andThen_err
    rw [tag_cons, tag_cons]
    cases s with
    | nil => rw [List.nil_append, tag_cons, tag_head hq]
    | cons d s =>
      have := elements_false_head hw
      rw [tag_head (by simpa using this)]

theorem claim_multilineFormatString {s : Str} {l : List (FEl Ex)} (ih : Claim (.elements true l) s) :
    Claim (.complex (.formatString l)) ('f' :: '"' :: '"' :: '"' :: s ++ ['"', '"', '"']) := by
  intro n hn r hr
  simp only [List.length_cons, List.length_append] at hn
  obtain ⟨m, rfl⟩ : ∃ m, n = m + 1 := ⟨n - 1, by omega⟩
  have hq : r.head? ≠ some '"' := head_ne hr.head (by decide)
  simp only [List.cons_append, List.append_assoc, List.nil_append]
  refine ⟨?_, notParen_head (by simp)⟩
  rw [complex_fstring, formatString]
  apply alt_ok
  have ht : tag ['f', '"', '"', '"'] ('f' :: '"' :: '"' :: '"' :: (s ++ '"' :: '"' :: '"' :: r)) =
      .ok () (s ++ '"' :: '"' :: '"' :: r) := tag_append ['f', '"', '"', '"'] _
  have hm := (ih m (by omega) r hq).many0 (fElement_err_close (m := true) r)
  have hc : tag ['"', '"', '"'] ('"' :: '"' :: '"' :: r) = .ok () r := tag_append ['"', '"', '"'] r
  rw [andThen_ok ht]
  refine (andThen_ok (a := l) (r := '"' :: '"' :: '"' :: r) hm).trans ?_
  rw [andThen_ok hc]
  rfl

/-! ## Everything -/

theorem Written.starts_expr {e : Ex} {s : Str} (h : Written (.expr e) s) : Starts s := h.startClaim

/-- Every way of writing something is read as that. -/
theorem Written.claim {c : Cat} {s : Str} (h : Written c s) : Claim c s := by
  induction h with
  | aggregation hk hn hw he hw' ih => exact claim_aggregation hk hn hw hw' he.startClaim ih
  | aggregationDistinct hk hn hw he hw1 hw2 hl hw' ih ih' =>
    exact claim_aggregationDistinct hk hn hw hw1 hw2 hw' he.startClaim hl.startClaim ih ih'
  | operation hk hn hw _ hw' ih => exact claim_operation hk hn hw hw' ih
  | atom ht hb hw hl hw' ih => exact claim_atom ht hb hw hw' hl.startClaim ih
  | map hw _ hw' ih => exact claim_map hw hw' ih
  | taggedMap ht hw0 hw _ hw' ih => exact claim_taggedMap ht hw0 hw hw' ih
  | tuple hw he hw1 hw2 _ hw' ih ih' => exact claim_tuple hw hw1 hw2 hw' he.startClaim ih ih'
  | formatString hl ih => exact claim_formatString hl ih
  | multilineFormatString _ ih => exact claim_multilineFormatString ih
  | noElements =>
    intro n _ r _
    exact .nil
  | text hc h1 h2 h3 h4 h5 hl hw ih => exact claim_text hc h1 h2 h3 h4 h5 hl hw ih
  | openBrace _ ih => exact claim_openBrace ih
  | closeBrace _ ih => exact claim_closeBrace ih
  | element he ht _ ih' ih => exact claim_element ht he.startClaim ih' ih
  | basic hb => exact claim_simple_of_basic hb
  | complex _ ih => exact claim_simple_of_complex ih
  | factor hs ih => exact claim_factor_of_simple hs.simple_not_arith ih
  | parenSimple hw hs hw' ih =>
    exact claim_parenSimple hw hw' hs.startClaim hs.simple_not_arith ih
  | parenArith hw hs ha hw' ih => exact claim_parenArith hw hw' hs.startClaim ha ih
  | product _ ih => exact claim_product_of_factor ih
  | mul ho _ hw hw' hf ih ih' => exact claim_mul ho hw hw' hf.startClaim ih ih'
  | sum _ ih => exact claim_sum_of_product ih
  | add ho _ hw hw' hf ih ih' => exact claim_add ho hw hw' hf.startClaim ih ih'
  | negation hw he ih => exact claim_negation hw he.startClaim ih
  | simpleExpr hs ih => exact claim_expr_of_simple hs.simple_not_arith ih
  | negatedExpr hn ih =>
    refine claim_negatedExpr ?_ ih
    rintro ⟨o, a, b, rfl⟩
    cases hn
  | arithExpr _ ha ih => exact claim_expr_of_sum ha ih
  | parenExpr hw he ha hw' ih => exact claim_parenExpr hw hw' he.startClaim ha ih
  | one _ ih =>
    intro n hn r hr
    exact .one (ih n hn r hr).1
  | more he hw hw' hl ih ih' =>
    intro n hn r hr
    simp only [List.length_append, List.length_cons] at hn
    exact .more hw.1 hw' hl.startClaim (ih n (by omega) _ (stops_of hw (by decide))).1
      (ih' n (by omega) r hr)
  | noSeq =>
    intro n hn
    exact .nil (expr_err_close _)
  | listSeq hl ih =>
    intro n hn
    exact .list hl.startClaim fun r hr => ih n hn r hr
  | trailing hl hw ih =>
    intro n hn
    simp only [List.length_append, List.length_cons] at hn
    exact .trailing (expr_err_close _) hl.startClaim hw fun r hr => ih n (by omega) r hr
  | onePair hk hw hw' hv ih ih' =>
    intro n hn r hr
    simp only [List.length_append, List.length_cons] at hn
    exact .one (keyValue_ok hw hw' hv.startClaim (fun r hr => (ih n (by omega) r hr).1)
      (ih' n (by omega) r hr).1)
  | @morePairs k v kvs s w w' s' w1 w2 s'' hk hw hw' hv hw1 hw2 hl ih ih' ih'' =>
    intro n hn r hr
    simp only [List.length_append, List.length_cons] at hn
    have h1 := keyValue_ok (r := w1 ++ ',' :: (w2 ++ (s'' ++ r))) hw hw' hv.startClaim
      (fun r hr => (ih n (by omega) r hr).1) (ih' n (by omega) _ (stops_of hw1 (by decide))).1
    have h2 := ListOk.more (s := s ++ (w ++ '=' :: (w' ++ s'))) hw1.1 hw2 hl.startClaim h1
      (ih'' n (by omega) r hr)
    simpa using h2
  | noPairs =>
    intro n hn
    exact .nil (keyValue_err_close _)
  | pairSeq hl ih =>
    intro n hn
    exact .list hl.startClaim fun r hr => ih n hn r hr
  | trailingPairs hl hw ih =>
    intro n hn
    simp only [List.length_append, List.length_cons] at hn
    exact .trailing (keyValue_err_close _) hl.startClaim hw fun r hr => ih n (by omega) r hr

end Verif.Parse
