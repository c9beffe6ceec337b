import Verif.ParseGuards

/-!
# Directives, statements and programs are read as written
-/
namespace Verif.Parse

set_option linter.unusedSimpArgs false

/-! ## Directives -/

theorem gap_not_nameChar {w : Str} (hw : Gap w) (hne : w ≠ []) (r : Str) :
    ∀ c ∈ (w ++ r).head?, nameChar c = false := by
  cases w with
  | nil => exact absurd rfl hne
  | cons d w =>
    have h := hw.head d rfl
    exact head_cons ((by decide : ∀ c ∈ [' ', '\t', '\r', '\n', '/'], nameChar c = false) d h)

theorem directiveKey_ok {k w r : Str} (hk : IsName k) (hw : Gap w) (hne : w ≠ []) :
    directiveKey k ('@' :: (k ++ (w ++ r))) = .ok () (w ++ r) := by
  rw [directiveKey, andThen_ok (tag1 '@' _)]
  simp only [name_append hk (gap_not_nameChar hw hne r), if_true]

theorem directiveKey_ne {k k' w r : Str} (hk : IsName k') (hw : Gap w) (hne : w ≠ []) (h : k' ≠ k) :
    directiveKey k ('@' :: (k' ++ (w ++ r))) = .err := by
  rw [directiveKey, andThen_ok (tag1 '@' _)]
  simp only [name_append hk (gap_not_nameChar hw hne r), if_neg h]

theorem directiveKey_err {k s : Str} (h : s.head? ≠ some '@') : directiveKey k s = .err := by
  rw [directiveKey]
  exact andThen_err (tag_head h)

theorem directive_err {n : Nat} {s : Str} (h : s.head? ≠ some '@') : directive n s = .err := by
  rw [directive, baseD, alt_err (andThen_err (directiveKey_err h)), declareD,
    alt_err (andThen_err (directiveKey_err h)), exportD, alt_err (andThen_err (directiveKey_err h)),
    importD, alt_err (andThen_err (directiveKey_err h)), outputD,
    alt_err (andThen_err (directiveKey_err h)), prefixD, alt_err (andThen_err (directiveKey_err h)),
    parameterD, alt_err (andThen_err (directiveKey_err h)), unknownD]
  exact andThen_err (tag_head h)

theorem isName_of {k : Str} {c : Char} {r : Str} (h : k = c :: r) (hc : c.isAlpha = true)
    (hr : r.all (fun d => d.isAlphanum) = true) : IsName k :=
  ⟨c, r, h, hc, fun d hd => Or.inl (List.all_eq_true.mp hr d hd)⟩

theorem key_base : IsName "base".toList := isName_of rfl (by decide) (by decide)
theorem key_declare : IsName "declare".toList := isName_of rfl (by decide) (by decide)
theorem key_export : IsName "export".toList := isName_of rfl (by decide) (by decide)
theorem key_import : IsName "import".toList := isName_of rfl (by decide) (by decide)
theorem key_output : IsName "output".toList := isName_of rfl (by decide) (by decide)
theorem key_prefix : IsName "prefix".toList := isName_of rfl (by decide) (by decide)
theorem key_parameter : IsName "parameter".toList := isName_of rfl (by decide) (by decide)

theorem IriText.append {i s : Str} (h : IriText i s) (r : Str) : iri (s ++ r) = .ok i r := by
  obtain ⟨h1, h2, rfl⟩ := h
  simpa using iri_append (r := r) h1 h2

theorem IriText.noWs {i s : Str} (h : IriText i s) (r : Str) : NoWs (s ++ r) := by
  obtain ⟨h1, h2, rfl⟩ := h
  exact noWs_cons (by decide) (by decide) (by decide)

/-! ### Declarations -/

theorem NameTypeText.starts {a : Option Str × Option IoType} {s : Str} (h : NameTypeText a s) :
    Starts s := by
  have hn : ∀ {n r : Str}, IsName n → Starts (n ++ r) := by
    intro n r hn
    obtain ⟨c, x, rfl, hc, _⟩ := hn.cons
    exact ⟨c, x ++ r, rfl, Or.inl hc⟩
  cases h with
  | unnamed => exact ⟨_, _, rfl, by decide⟩
  | named h =>
    obtain ⟨c, x, rfl, hc, _⟩ := h.cons
    exact ⟨c, x, rfl, Or.inl hc⟩
  | unnamedTyped => exact ⟨_, _, rfl, by decide⟩
  | namedTyped h => exact hn h

/-- What follows a parameter in a declaration. -/
def PairEnd (r : Str) : Prop := ∃ (w : Str) (c : Char) (r' : Str), r = w ++ c :: r' ∧ Gap w ∧
  c ∈ [',', ')']

theorem dataType_append (t : IoType) (r : Str) : dataType (t.text ++ r) = .ok t r := by
  cases t <;> rfl

theorem dataType_noWs (t : IoType) (r : Str) : NoWs (t.text ++ r) := by
  cases t <;> exact noWs_cons (by decide) (by decide) (by decide)

theorem typed_append {w w' r : Str} {t : IoType} (hw : Ws w) (hw' : Ws w') :
    (andThen wsoc fun _ => andThen (tag [':']) fun _ => andThen wsoc fun _ => dataType)
      (w ++ ':' :: (w' ++ (t.text ++ r))) = .ok t r := by
  rw [andThen_ok (wsoc_append hw (noWs_arrow _)), andThen_ok (tag1 ':' _),
    andThen_ok (wsoc_append hw' (dataType_noWs t r))]
  exact dataType_append t r

theorem typed_err {r : Str} (h : PairEnd r) :
    (andThen wsoc fun _ => andThen (tag [':']) fun _ => andThen wsoc fun _ => dataType) r = .err := by
  obtain ⟨w, c, r', rfl, hw, hc⟩ := h
  have hf := (by decide : ∀ c ∈ [',', ')'], isSpace c = false ∧ c ≠ '%' ∧ c ≠ '/' ∧ c ≠ ':') c hc
  rw [andThen_ok (wsoc_append hw.1 (noWs_cons hf.1 hf.2.1 hf.2.2.1))]
  refine andThen_err (tag_head ?_)
  simpa using hf.2.2.2

theorem PairEnd.nameChar {r : Str} (h : PairEnd r) : ∀ c ∈ r.head?, nameChar c = false := by
  obtain ⟨w, c, r', rfl, hw, hc⟩ := h
  refine head_append (fun d hd => ?_) (head_cons ?_)
  · exact (by decide : ∀ c ∈ [' ', '\t', '\r', '\n', '/'], Verif.Parse.nameChar c = false) d (hw.head d hd)
  · exact (by decide : ∀ c ∈ [',', ')'], Verif.Parse.nameChar c = false) c hc

theorem gap_colon_nameChar {w r : Str} (hw : Gap w) : ∀ c ∈ (w ++ ':' :: r).head?, nameChar c = false := by
  refine head_append (fun d hd => ?_) (head_cons (by decide))
  exact (by decide : ∀ c ∈ [' ', '\t', '\r', '\n', '/'], Verif.Parse.nameChar c = false) d (hw.head d hd)

theorem name_not_underscore {n r : Str} (h : IsName n) : (n ++ r).head? ≠ some '_' := by
  obtain ⟨c, x, rfl, hc, _⟩ := h.cons
  simp only [List.cons_append, List.head?_cons, ne_eq, Option.some.injEq]
  rintro rfl
  revert hc
  decide

theorem NameTypeText.read {a : Option Str × Option IoType} {s r : Str} (h : NameTypeText a s)
    (hr : PairEnd r) : nameType (s ++ r) = .ok a r := by
  cases h with
  | unnamed =>
    show nameType ('_' :: r) = _
    rw [nameType, andThen_ok (alt_ok (pmap_ok (tag1 '_' r)))]
    exact pmap_ok (opt_err (typed_err hr))
  | named h =>
    rw [nameType, andThen_ok (a := some s) (r := r)]
    · exact pmap_ok (opt_err (typed_err hr))
    · rw [alt_err (pmap_err (tag_head (name_not_underscore h)))]
      exact pmap_ok (name_append h hr.nameChar)
  | @unnamedTyped t w w' hw hw' =>
    have e0 : '_' :: (w ++ ':' :: (w' ++ t.text)) ++ r = '_' :: (w ++ ':' :: (w' ++ (t.text ++ r))) := by
      simp
    rw [e0, nameType, andThen_ok (alt_ok (pmap_ok (tag1 '_' _)))]
    exact pmap_ok (opt_ok (typed_append hw hw'))
  | @namedTyped n t w w' h hw hw' =>
    have e0 : n ++ (w ++ ':' :: (w' ++ t.text)) ++ r = n ++ (w ++ ':' :: (w' ++ (t.text ++ r))) := by
      simp
    rw [e0, nameType, andThen_ok (a := some n) (r := w ++ ':' :: (w' ++ (t.text ++ r)))]
    · exact pmap_ok (opt_ok (typed_append hw.1 hw'))
    · rw [alt_err (pmap_err (tag_head (name_not_underscore h)))]
      exact pmap_ok (name_append h (gap_colon_nameChar hw))

theorem reads_nameType (n : Nat) : Reads NameTypeText nameType n PairEnd where
  starts _ _ h := h.starts
  read _ _ _ h _ hr := h.read hr
  comma w r hw := ⟨w, ',', r, rfl, hw, by decide⟩

theorem nameType_close (r : Str) : nameType (')' :: r) = .err := by
  rw [nameType]
  apply andThen_err
  rw [alt_err (pmap_err (tag_head (by simp)))]
  exact pmap_err (name_err (by simp; decide))

theorem tagFollow_of {w r : Str} {c : Char} (hw : Gap w) (hc : nameChar c = false)
    (h2 : c = ':' → ∀ d ∈ r.head?, isAlpha d = false) : TagFollow (w ++ c :: r) := by
  refine ⟨head_append (fun d hd => ?_) (head_cons hc), ?_⟩
  · exact (by decide : ∀ c ∈ [' ', '\t', '\r', '\n', '/'], Verif.Parse.nameChar c = false) d (hw.head d hd)
  · intro x hx
    cases w with
    | nil =>
      simp only [List.nil_append, List.cons.injEq] at hx
      obtain ⟨rfl, rfl⟩ := hx
      exact h2 rfl
    | cons d w =>
      have h := hw.head d rfl
      simp only [List.cons_append, List.cons.injEq] at hx
      obtain ⟨rfl, _⟩ := hx
      exact absurd h (by decide)

/-! ### Imports and exports -/

theorem mapP_append {m : Option Tag} {kvs : List (Ex × Ex)} {s r : Str} {n : Nat}
    (h : Written (.complex (.map m kvs)) s) (hn : s.length ≤ n) (hr : Stops r) :
    mapP (expression (n + 1)) (s ++ r) = .ok (.map m kvs) r :=
  complex_map (h.claim (n + 1) (by omega) r hr.after).1

theorem IoText.read {t : Tag} {m : Ex} {gs : Option (List Guard)} {s w r : Str} {n : Nat}
    (f : Tag → Ex → Option (List Guard) → DirectiveAst) (h : IoText t m gs s) (hn : s.length ≤ n)
    (hw : Gap w) (hr : ∀ d ∈ r.head?, d.isDigit = false) :
    ∃ r2, ioBody (n + 1) f (s ++ (w ++ '.' :: r)) = .ok (f t m gs) r2 ∧
      wsoc r2 = .ok () ('.' :: r) := by
  cases h with
  | @mk m kvs gs ts w1 w2 s s' ht hw1 hw2 hm hg =>
    simp only [List.length_append, List.length_cons] at hn
    have hms : Starts s := hm.startClaim
    obtain ⟨r2, e1, e2⟩ : ∃ r2, pmap (f t (.map m kvs)) (opt (andThen sepComma fun _ =>
        sequence (guard (n + 1)))) (s' ++ (w ++ '.' :: r)) = .ok (f t (.map m kvs) gs) r2 ∧
        wsoc r2 = .ok () ('.' :: r) := by
      cases hg with
      | none =>
        refine ⟨w ++ '.' :: r, pmap_ok (opt_err (andThen_err ?_)), wsoc_append hw.1 (noWs_dot r)⟩
        exact sepComma_err (w := w) (t := '.' :: r) hw.1 (noWs_dot r) (by simp)
      | @some gs w3 w4 s' hw3 hw4 hs =>
        simp only [List.length_append, List.length_cons] at hn
        obtain ⟨rb, rc, e3, e4, e5⟩ := hs.sequence (reads_guard n) (w0 := w4) (w := w) (t := '.' :: r)
          (by omega) hw4 hw.1 (ends_dot hw hr) (noWs_dot r) (by simp) (guard_dot _ _)
        refine ⟨rc, ?_, e5⟩
        have e0 : w3 ++ ',' :: (w4 ++ s') ++ (w ++ '.' :: r) =
            w3 ++ ',' :: (w4 ++ (s' ++ (w ++ '.' :: r))) := by simp
        have e6 : sepComma (w3 ++ ',' :: (w4 ++ (s' ++ (w ++ '.' :: r)))) = .ok () rb := by
          rw [sepComma, andThen_ok (wsoc_append hw3.1 (noWs_cons (by decide) (by decide) (by decide))),
            andThen_ok (tag1 ',' _)]
          exact e3
        rw [e0]
        refine pmap_ok (opt_ok ?_)
        rw [andThen_ok e6]
        exact e4
    refine ⟨r2, ?_, e2⟩
    have hst : Stops (s' ++ (w ++ '.' :: r)) := by
      cases hg with
      | none => exact (ends_dot hw hr).stops
      | @some gs w3 w4 s' hw3 hw4 hs =>
        have := stops_of (r := w4 ++ s' ++ (w ++ '.' :: r)) (c := ',') hw3 (by decide)
        simpa using this
    have e0 : ts ++ (w1 ++ ':' :: '-' :: (w2 ++ (s ++ s'))) ++ (w ++ '.' :: r) =
        ts ++ (w1 ++ ':' :: '-' :: (w2 ++ (s ++ (s' ++ (w ++ '.' :: r))))) := by simp
    rw [e0, ioBody, andThen_ok (structureTag_append ht (tagFollow_of hw1 (by decide)
        (fun _ => head_cons (by decide)))),
      andThen_ok (wsoc_append hw1.1 (noWs_arrow _)), andThen_ok (tag2 ':' '-' _),
      andThen_ok (wsoc_append hw2 (hms.append _).noWs), andThen_ok (mapP_append hm (by omega) hst)]
    exact e1

/-! ### Outputs -/

theorem reads_tag (n : Nat) : Reads TagText structureTag n Ends where
  starts _ _ h := h.starts
  read _ _ _ h _ hr := structureTag_append h hr.stops.after.tagFollow
  comma _ _ hw := ends_comma hw

theorem IoText.starts {t : Tag} {m : Ex} {gs : Option (List Guard)} {s : Str} (h : IoText t m gs s) :
    Starts s := by
  cases h with
  | mk ht => exact ht.starts.append _

theorem DirectiveText.read {x : DirectiveAst} {s w r : Str} {n : Nat} (h : DirectiveText x s)
    (hn : s.length ≤ n) (hw : Gap w) (hr : ∀ d ∈ r.head?, d.isDigit = false) :
    ∃ r2, directive (n + 1) (s ++ (w ++ '.' :: r)) = .ok x r2 ∧ wsoc r2 = .ok () ('.' :: r) := by
  cases h with
  | @base i w1 s hw1 hne hi =>
    refine ⟨w ++ '.' :: r, ?_, wsoc_append hw.1 (noWs_dot r)⟩
    have e0 : '@' :: ("base".toList ++ (w1 ++ s)) ++ (w ++ '.' :: r) =
        '@' :: ("base".toList ++ (w1 ++ (s ++ (w ++ '.' :: r)))) := by
      simp only [List.cons_append, List.append_assoc]
    rw [e0, directive]
    apply alt_ok
    rw [baseD, andThen_ok (directiveKey_ok key_base hw1 hne), andThen_ok (wsoc_append hw1.1 (hi.noWs _))]
    exact pmap_ok (hi.append _)
  | @declare t ps w1 ts w0 w2 s w3 hw1 hne ht hw0 hw2 hs hw3 =>
    refine ⟨w ++ '.' :: r, ?_, wsoc_append hw.1 (noWs_dot r)⟩
    simp only [List.length_cons, List.length_append] at hn
    have e0 : '@' :: ("declare".toList ++ (w1 ++ (ts ++ (w0 ++ '(' :: (w2 ++ (s ++ (w3 ++ [')']))))))) ++
        (w ++ '.' :: r) = '@' :: ("declare".toList ++ (w1 ++ (ts ++ (w0 ++ '(' :: (w2 ++ (s ++
          (w3 ++ ')' :: (w ++ '.' :: r)))))))) := by
      simp only [List.cons_append, List.append_assoc, List.nil_append]
    obtain ⟨rb, rc, e3, e4, e5⟩ := hs.sequence (reads_nameType n) (w0 := w2) (w := w3)
      (t := ')' :: (w ++ '.' :: r)) (by omega) hw2 hw3.1 ⟨w3, ')', _, rfl, hw3, by decide⟩
      (noWs_cons (by decide) (by decide) (by decide)) (by simp) (nameType_close _)
    rw [e0, directive, baseD, alt_err (andThen_err (directiveKey_ne key_declare hw1 hne (by decide)))]
    apply alt_ok
    rw [declareD, andThen_ok (directiveKey_ok key_declare hw1 hne),
      andThen_ok (wsoc_append hw1.1 (ht.starts.append _).noWs),
      andThen_ok (structureTag_append ht (tagFollow_of hw0 (by decide) (by simp))),
      andThen_ok (wsoc_append hw0.1 (noWs_cons (by decide) (by decide) (by decide)))]
    refine pmap_ok ?_
    rw [bracketed, andThen_ok (tag1 '(' _), andThen_ok e3, andThen_ok e4, andThen_ok e5,
      andThen_ok (tag1 ')' _)]
    rfl
  | @exportTo t m gs w1 s hw1 hne hi =>
    simp only [List.length_cons, List.length_append] at hn
    obtain ⟨r2, e1, e2⟩ := hi.read .exportTo (n := n) (by omega) hw hr
    refine ⟨r2, ?_, e2⟩
    have e0 : '@' :: ("export".toList ++ (w1 ++ s)) ++ (w ++ '.' :: r) =
        '@' :: ("export".toList ++ (w1 ++ (s ++ (w ++ '.' :: r)))) := by
      simp only [List.cons_append, List.append_assoc]
    rw [e0, directive, baseD, alt_err (andThen_err (directiveKey_ne key_export hw1 hne (by decide))),
      declareD, alt_err (andThen_err (directiveKey_ne key_export hw1 hne (by decide)))]
    apply alt_ok
    rw [exportD, andThen_ok (directiveKey_ok key_export hw1 hne),
      andThen_ok (wsoc_append hw1.1 (hi.starts.append _).noWs)]
    exact e1
  | @importFrom t m gs w1 s hw1 hne hi =>
    simp only [List.length_cons, List.length_append] at hn
    obtain ⟨r2, e1, e2⟩ := hi.read .importFrom (n := n) (by omega) hw hr
    refine ⟨r2, ?_, e2⟩
    have e0 : '@' :: ("import".toList ++ (w1 ++ s)) ++ (w ++ '.' :: r) =
        '@' :: ("import".toList ++ (w1 ++ (s ++ (w ++ '.' :: r)))) := by
      simp only [List.cons_append, List.append_assoc]
    rw [e0, directive, baseD, alt_err (andThen_err (directiveKey_ne key_import hw1 hne (by decide))),
      declareD, alt_err (andThen_err (directiveKey_ne key_import hw1 hne (by decide))),
      exportD, alt_err (andThen_err (directiveKey_ne key_import hw1 hne (by decide)))]
    apply alt_ok
    rw [importD, andThen_ok (directiveKey_ok key_import hw1 hne),
      andThen_ok (wsoc_append hw1.1 (hi.starts.append _).noWs)]
    exact e1
  | @output ts w1 s hw1 hne hs =>
    simp only [List.length_cons, List.length_append] at hn
    obtain ⟨rb, rc, e3, e4, e5⟩ := hs.sequence (reads_tag n) (w0 := w1) (w := w) (t := '.' :: r)
      (by omega) hw1.1 hw.1 (ends_dot hw hr) (noWs_dot r) (by simp)
      (structureTag_err (by simp; decide))
    refine ⟨rc, ?_, e5⟩
    have e0 : '@' :: ("output".toList ++ (w1 ++ s)) ++ (w ++ '.' :: r) =
        '@' :: ("output".toList ++ (w1 ++ (s ++ (w ++ '.' :: r)))) := by
      simp only [List.cons_append, List.append_assoc]
    rw [e0, directive, baseD, alt_err (andThen_err (directiveKey_ne key_output hw1 hne (by decide))),
      declareD, alt_err (andThen_err (directiveKey_ne key_output hw1 hne (by decide))),
      exportD, alt_err (andThen_err (directiveKey_ne key_output hw1 hne (by decide))),
      importD, alt_err (andThen_err (directiveKey_ne key_output hw1 hne (by decide)))]
    apply alt_ok
    rw [outputD, andThen_ok (directiveKey_ok key_output hw1 hne), andThen_ok e3]
    exact pmap_ok e4
  | @prefixIs p i w1 w2 w3 s hw1 hne hp hw2 hw3 hi =>
    refine ⟨w ++ '.' :: r, ?_, wsoc_append hw.1 (noWs_dot r)⟩
    have e0 : '@' :: ("prefix".toList ++ (w1 ++ (p ++ (w2 ++ ':' :: (w3 ++ s))))) ++ (w ++ '.' :: r) =
        '@' :: ("prefix".toList ++ (w1 ++ (p ++ (w2 ++ ':' :: (w3 ++ (s ++ (w ++ '.' :: r))))))) := by
      simp only [List.cons_append, List.append_assoc]
    obtain ⟨r1, e1, e2⟩ : ∃ r1, wsoc (w1 ++ (p ++ (w2 ++ ':' :: (w3 ++ (s ++ (w ++ '.' :: r)))))) =
        .ok () r1 ∧ (andThen (alt name (ret [])) fun p => andThen wsoc fun _ =>
          andThen (tag [':']) fun _ => andThen wsoc fun _ => pmap (DirectiveAst.prefixIs p) iri) r1 =
          .ok (.prefixIs p i) (w ++ '.' :: r) := by
      rcases hp with rfl | hp
      · refine ⟨':' :: (w3 ++ (s ++ (w ++ '.' :: r))), ?_, ?_⟩
        · rw [List.nil_append, ← List.append_assoc]
          exact wsoc_append (hw1.1.append hw2.1) (noWs_arrow _)
        · rw [andThen_ok (a := []) (r := ':' :: (w3 ++ (s ++ (w ++ '.' :: r)))),
            andThen_ok (wsoc_none (noWs_arrow _)), andThen_ok (tag1 ':' _),
            andThen_ok (wsoc_append hw3 (hi.noWs _))]
          · exact pmap_ok (hi.append _)
          · rw [alt_err (name_err (by simp; decide))]
            rfl
      · refine ⟨p ++ (w2 ++ ':' :: (w3 ++ (s ++ (w ++ '.' :: r)))), wsoc_append hw1.1 ?_, ?_⟩
        · exact ((TagText.plain hp).starts.append _).noWs
        · rw [andThen_ok (alt_ok (name_append hp (gap_colon_nameChar hw2))),
            andThen_ok (wsoc_append hw2.1 (noWs_arrow _)), andThen_ok (tag1 ':' _),
            andThen_ok (wsoc_append hw3 (hi.noWs _))]
          exact pmap_ok (hi.append _)
    rw [e0, directive, baseD, alt_err (andThen_err (directiveKey_ne key_prefix hw1 hne (by decide))),
      declareD, alt_err (andThen_err (directiveKey_ne key_prefix hw1 hne (by decide))),
      exportD, alt_err (andThen_err (directiveKey_ne key_prefix hw1 hne (by decide))),
      importD, alt_err (andThen_err (directiveKey_ne key_prefix hw1 hne (by decide))),
      outputD, alt_err (andThen_err (directiveKey_ne key_prefix hw1 hne (by decide)))]
    apply alt_ok
    rw [prefixD, andThen_ok (directiveKey_ok key_prefix hw1 hne), andThen_ok e1]
    exact e2
  | @parameter k v w1 hw1 hne hv =>
    refine ⟨'.' :: r, ?_, wsoc_none (noWs_dot r)⟩
    have e0 : '@' :: ("parameter".toList ++ (w1 ++ k.mark :: v)) ++ (w ++ '.' :: r) =
        '@' :: ("parameter".toList ++ (w1 ++ k.mark :: (v ++ (w ++ '.' :: r)))) := by
      simp only [List.cons_append, List.append_assoc]
    have hk : NoWs (k.mark :: (v ++ (w ++ '.' :: r))) := by
      cases k <;> exact noWs_cons (by decide) (by decide) (by decide)
    rw [e0, directive, baseD, alt_err (andThen_err (directiveKey_ne key_parameter hw1 hne (by decide))),
      declareD, alt_err (andThen_err (directiveKey_ne key_parameter hw1 hne (by decide))),
      exportD, alt_err (andThen_err (directiveKey_ne key_parameter hw1 hne (by decide))),
      importD, alt_err (andThen_err (directiveKey_ne key_parameter hw1 hne (by decide))),
      outputD, alt_err (andThen_err (directiveKey_ne key_parameter hw1 hne (by decide))),
      prefixD, alt_err (andThen_err (directiveKey_ne key_parameter hw1 hne (by decide)))]
    apply alt_ok
    rw [parameterD, andThen_ok (directiveKey_ok key_parameter hw1 hne),
      andThen_ok (wsoc_append hw1.1 hk), andThen_ok (wsoc_none hk),
      andThen_ok (variable_append hv (ends_dot hw hr).stops.after),
      andThen_ok (wsoc_append hw.1 (noWs_dot r))]
    exact pmap_ok (opt_err (andThen_err (tag_head (by simp))))
  | @parameterValue k v w1 w2 w3 s e hw1 hne hv hw2 hw3 he =>
    refine ⟨w ++ '.' :: r, ?_, wsoc_append hw.1 (noWs_dot r)⟩
    simp only [List.length_cons, List.length_append] at hn
    have e0 : '@' :: ("parameter".toList ++ (w1 ++ k.mark :: (v ++ (w2 ++ '=' :: (w3 ++ s))))) ++
        (w ++ '.' :: r) =
        '@' :: ("parameter".toList ++ (w1 ++ k.mark :: (v ++ (w2 ++ '=' :: (w3 ++ (s ++
          (w ++ '.' :: r))))))) := by
      simp only [List.cons_append, List.append_assoc]
    have hk : NoWs (k.mark :: (v ++ (w2 ++ '=' :: (w3 ++ (s ++ (w ++ '.' :: r)))))) := by
      cases k <;> exact noWs_cons (by decide) (by decide) (by decide)
    have hes : Starts s := he.startClaim
    rw [e0, directive, baseD, alt_err (andThen_err (directiveKey_ne key_parameter hw1 hne (by decide))),
      declareD, alt_err (andThen_err (directiveKey_ne key_parameter hw1 hne (by decide))),
      exportD, alt_err (andThen_err (directiveKey_ne key_parameter hw1 hne (by decide))),
      importD, alt_err (andThen_err (directiveKey_ne key_parameter hw1 hne (by decide))),
      outputD, alt_err (andThen_err (directiveKey_ne key_parameter hw1 hne (by decide))),
      prefixD, alt_err (andThen_err (directiveKey_ne key_parameter hw1 hne (by decide)))]
    apply alt_ok
    rw [parameterD, andThen_ok (directiveKey_ok key_parameter hw1 hne),
      andThen_ok (wsoc_append hw1.1 hk), andThen_ok (wsoc_none hk),
      andThen_ok (variable_append hv (stops_of hw2 (by decide)).after),
      andThen_ok (wsoc_append hw2.1 (noWs_cons (by decide) (by decide) (by decide)))]
    refine pmap_ok (opt_ok ?_)
    rw [andThen_ok (tag1 '=' _), andThen_ok (wsoc_append hw3 (hes.append _).noWs)]
    exact (he.claim n (by omega) _ (ends_dot hw hr).stops).1

end Verif.Parse
