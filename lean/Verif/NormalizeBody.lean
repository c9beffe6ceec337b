import Verif.NormalizeProofs

/-!
# The body of a normalized rule (C43)
-/

set_option linter.unusedSimpArgs false
set_option linter.unusedSectionVars false
set_option linter.unusedVariables false

namespace Verif
variable {α : Type} [DecidableEq α] [Dom α]

/-- the state of the generator after the positive body -/
abbrev posGen (S : SRule α) : Nat := (normBodyAtoms S.positive 0).2.2
/-- the state of the generator after the negative body -/
abbrev negGen (S : SRule α) : Nat := (normBodyAtoms S.negative (posGen S)).2.2
/-- the parts of a head atom -/
abbrev headParts (S : SRule α) (j : Nat) (h : SHead α) : HeadParts α := normHeadLoop h.terms 0 (headsGen S.head (negGen S) j)

theorem mem_norm_ops (S : SRule α) (order : List Variable) (o : Operation α) : o ∈ (normalizeRule S order).operations ↔
    o ∈ S.operations ∨ (∃ a k, AtomAt S.positive 0 a k ∧ o ∈ (normBodyTerms a.terms [] k).2.1) ∨
    (∃ a k, AtomAt S.negative (posGen S) a k ∧ o ∈ (normBodyTerms a.terms [] k).2.1) ∨
    (∃ (j : Nat) (h : SHead α), S.head[j]? = some h ∧ o ∈ (headParts S j h).ops) ∨
    (∃ (j : Nat) (h : SHead α) (a : Nat × Operation α × List Variable) (outer : List Variable) (j' : Nat),
      S.head[j]? = some h ∧ (headParts S j h).agg = some (a, outer, j') ∧ o ∈ (normAggInput a.2.1).2) := by
  rw [normalizeRule]
  simp only [List.mem_append, mem_normBodyAtoms_ops, mem_normHeadAtoms_ops, mem_normHeadAtom_ops, or_assoc]
  refine or_congr_right (or_congr_right (or_congr_right ?_))
  constructor
  · rintro ⟨j, h, h1, h2 | ⟨a, outer, j', h2, h3⟩⟩
    · exact .inl ⟨j, h, h1, h2⟩
    · exact .inr ⟨j, h, a, outer, j', h1, h2, h3⟩
  · rintro (⟨j, h, h1, h2⟩ | ⟨j, h, a, outer, j', h1, h2, h3⟩)
    · exact ⟨j, h, h1, .inl h2⟩
    · exact ⟨j, h, h1, .inr ⟨a, outer, j', h2, h3⟩⟩

theorem mem_norm_pos (S : SRule α) (order : List Variable) (x : BodyAtom) : x ∈ (normalizeRule S order).positive ↔
    ∃ a k, AtomAt S.positive 0 a k ∧ x = ⟨a.pred, (normBodyTerms a.terms [] k).1⟩ := mem_normBodyAtoms _ _ _

theorem mem_norm_neg (S : SRule α) (order : List Variable) (x : BodyAtom) : x ∈ (normalizeRule S order).negative ↔
    ∃ a k, AtomAt S.negative (posGen S) a k ∧ x = ⟨a.pred, (normBodyTerms a.terms [] k).1⟩ := mem_normBodyAtoms _ _ _

theorem normAggInput_cases (i : Operation α) : (∃ v, i = .var v ∧ normAggInput i = (v, [])) ∨
    normAggInput i = (aggIn, [.equal (.var aggIn) i]) := by
  cases i <;> simp [normAggInput]

/-! ## Names -/

namespace SValid
variable {S : SRule α} (hV : SValid S)
include hV

theorem userBody {a : SAtom α} (ha : a ∈ S.positive ++ S.negative) : UserTerms a.terms := by
  constructor
  · intro v hv
    refine hV.user v (List.mem_append_left _ (List.mem_append_left _ (List.mem_flatMap.2 ⟨a, ha, ?_⟩)))
    exact List.mem_flatMap.2 ⟨_, hv, by simp⟩
  · intro o ho v hv
    refine hV.user v (List.mem_append_left _ (List.mem_append_left _ (List.mem_flatMap.2 ⟨a, ha, ?_⟩)))
    exact List.mem_flatMap.2 ⟨_, ho, by simpa using hv⟩

theorem userPos {a : SAtom α} (ha : a ∈ S.positive) : UserTerms a.terms := hV.userBody (List.mem_append_left _ ha)
theorem userNeg {a : SAtom α} (ha : a ∈ S.negative) : UserTerms a.terms := hV.userBody (List.mem_append_right _ ha)

theorem userOps {o : Operation α} (ho : o ∈ S.operations) {v : Variable} (hv : v ∈ o.vars) : ¬ v.Reserved :=
  hV.user v (List.mem_append_left _ (List.mem_append_right _ (List.mem_flatMap.2 ⟨o, ho, hv⟩)))

theorem userHead {h : SHead α} (hh : h ∈ S.head) : UserHead h.terms := fun t ht v hv =>
  hV.user v (List.mem_append_right _ (List.mem_flatMap.2 ⟨h, hh, HTerm.mem_varsList ht hv⟩))

/-- The variables of terms that are not variables get a value from the body. -/
theorem headTermSafe {h : SHead α} (hh : h ∈ S.head) {t : HTerm α} (ht : t ∈ h.terms) (hne : ∀ v, t ≠ .var v) {v : Variable}
    (hv : v ∈ t.vars) : SSafe S v :=
  hV.headSafe h hh v (HTerm.mem_varsList ht hv) (hV.headPlain h hh t ht hne v hv)

end SValid

theorem assignment_vars {o e : Operation α} {v : Variable} (h : o.variableAssignment = some (v, e)) :
    v ∈ o.vars ∧ ∀ w ∈ e.vars, w ∈ o.vars := by
  unfold Operation.variableAssignment at h
  split at h
  · cases h; simp only [Operation.vars, List.mem_append]; exact ⟨.inl (by simp), fun w hw => .inr hw⟩
  · cases h; simp only [Operation.vars, List.mem_append]; exact ⟨.inr (by simp), fun w hw => .inl hw⟩
  · cases h

section
variable {S : SRule α} (order : List Variable)

/-- abbreviation: the variable has a value in the body of the normalized rule -/
abbrev NSafe (S : SRule α) (order : List Variable) (v : Variable) : Prop :=
  SafeVar (normalizeRule S order).positive (normalizeRule S order).operations v

/-! ## Variables that have a value -/

theorem SSafe.user (hV : SValid S) {v : Variable} (h : SSafe S v) : ¬ v.Reserved := by
  cases h with
  | atom ha hv => exact (hV.userPos ha).1 v hv
  | assign ho hs _ => exact hV.userOps ho (assignment_vars hs).1

theorem SSafe.norm (hV : SValid S) {v : Variable} (h : SSafe S v) : NSafe S order v := by
  induction h with
  | @atom a v ha hv =>
    obtain ⟨k, hk⟩ := exists_atomAt 0 ha
    refine .atom ((mem_norm_pos S order _).2 ⟨a, k, hk, rfl⟩) ?_
    exact (normBodyTerms_has a.terms [] k hv).resolve_left (by simp)
  | assign ho hs _ ih => exact .assign ((mem_norm_ops S order _).2 (.inl ho)) hs ih

/-- The left-hand side of a new operation. -/
theorem new_op_left (hV : SValid S) {o : Operation α} (ho : o ∈ (normalizeRule S order).operations) (hn : o ∉ S.operations) :
    ∃ f e, o = .equal (.var f) e ∧ f.Reserved ∧ f ≠ aggOut := by
  rcases (mem_norm_ops S order o).1 ho with h | ⟨a, k, h1, h2⟩ | ⟨a, k, h1, h2⟩ | ⟨j, h, h1, h2⟩ |
    ⟨j, h, a, outer, j', h1, h2, h3⟩
  · exact absurd h hn
  · obtain ⟨f, e, rfl, hf, -⟩ := normBodyTerms_ops _ _ _ h2
    refine ⟨f, e, rfl, hf.reserved, ?_⟩
    obtain ⟨k, _, _, rfl⟩ := hf; exact (fresh_ne_agg _).2.1
  · obtain ⟨f, e, rfl, hf, -⟩ := normBodyTerms_ops _ _ _ h2
    refine ⟨f, e, rfl, hf.reserved, ?_⟩
    obtain ⟨k, _, _, rfl⟩ := hf; exact (fresh_ne_agg _).2.1
  · obtain ⟨f, t, _, rfl, hf, -⟩ := normHeadLoop_ops_form h2
    exact ⟨f, _, rfl, hf.reserved, hf.ne_aggOut⟩
  · rcases normAggInput_cases a.2.1 with ⟨v, -, hi⟩ | hi
    · rw [hi] at h3; cases h3
    · rw [hi, List.mem_singleton] at h3
      subst h3
      exact ⟨aggIn, _, rfl, aggIn_reserved, aggIn_ne_aggOut⟩

theorem NSafe.user (hV : SValid S) {v : Variable} (h : NSafe S order v) (hv : ¬ v.Reserved) : SSafe S v := by
  induction h with
  | @atom x v hx hxv =>
    obtain ⟨a, k, hk, rfl⟩ := (mem_norm_pos S order _).1 hx
    rcases normBodyTerms_vars a.terms [] k hxv with h | h
    · exact .atom hk.mem h.1
    · exact absurd h.reserved hv
  | @assign o e v ho hs _ ih =>
    by_cases hn : o ∈ S.operations
    · exact .assign hn hs fun w hw => ih w hw (hV.userOps hn ((assignment_vars hs).2 w hw))
    · obtain ⟨f, e', rfl, hf, -⟩ := new_op_left order hV ho hn
      rw [Operation.variableAssignment] at hs
      cases hs
      exact absurd hf hv

theorem nsafe_user (hV : SValid S) {v : Variable} (hv : ¬ v.Reserved) : NSafe S order v ↔ SSafe S v :=
  ⟨fun h => h.user order hV hv, fun h => h.norm order hV⟩

theorem NSafe.ne_aggOut (hV : SValid S) {v : Variable} (h : NSafe S order v) : v ≠ aggOut := by
  cases h with
  | @atom x _ hx hxv =>
    obtain ⟨a, k, hk, rfl⟩ := (mem_norm_pos S order _).1 hx
    rcases normBodyTerms_vars a.terms [] k hxv with h | ⟨k', _, _, rfl⟩
    · rintro rfl; exact (hV.userPos hk.mem).1 _ h.1 aggOut_reserved
    · exact (fresh_ne_agg _).2.1
  | @assign o e _ ho hs _ =>
    by_cases hn : o ∈ S.operations
    · rintro rfl; exact hV.userOps hn (assignment_vars hs).1 aggOut_reserved
    · obtain ⟨f, e', rfl, _, hf⟩ := new_op_left order hV ho hn
      rw [Operation.variableAssignment] at hs
      cases hs
      exact hf

/-- the operations of the positive body concern variables that have a value -/
theorem pos_op_safe (hV : SValid S) {a : SAtom α} {k : Nat} (ha : AtomAt S.positive 0 a k) {o : Operation α}
    (ho : o ∈ (normBodyTerms a.terms [] k).2.1) {v : Variable} (hv : v ∈ o.vars) : NSafe S order v := by
  obtain ⟨f, e, rfl, _, hf, he⟩ := normBodyTerms_ops _ _ _ ho
  rcases List.mem_append.1 hv with hv | hv
  · obtain rfl : v = f := by simpa [Operation.vars] using hv
    exact .atom ((mem_norm_pos S order _).2 ⟨a, k, ha, rfl⟩) hf
  · refine SSafe.norm order hV ?_
    rcases he with ⟨w, rfl, hw⟩ | ⟨c, rfl⟩ | he
    · obtain rfl : v = w := by simpa [Operation.vars] using hv
      exact .atom ha.mem hw
    · simp [Operation.vars] at hv
    · exact hV.operSafe a (List.mem_append_left _ ha.mem) e he v hv

/-- the right-hand side of the operations for a negated atom -/
theorem neg_op_right (hV : SValid S) {a : SAtom α} {k : Nat} (ha : AtomAt S.negative (posGen S) a k) {o : Operation α}
    (ho : o ∈ (normBodyTerms a.terms [] k).2.1) : ∃ f e, o = .equal (.var f) e ∧ BodyFresh k (endGen a k) f ∧
      f ∈ (normBodyTerms a.terms [] k).1 ∧ ∀ v ∈ e.vars, SSafe S v ∨ .var v ∈ a.terms := by
  obtain ⟨f, e, rfl, hf, hf', he⟩ := normBodyTerms_ops _ _ _ ho
  refine ⟨f, e, rfl, hf, hf', fun v hv => ?_⟩
  rcases he with ⟨w, rfl, hw⟩ | ⟨c, rfl⟩ | he
  · obtain rfl : v = w := by simpa [Operation.vars] using hv
    exact .inr hw
  · simp [Operation.vars] at hv
  · exact .inl (hV.operSafe a (List.mem_append_right _ ha.mem) e he v hv)

/-- the operations of the head concern variables that have a value, or the result of the aggregate -/
theorem head_op_right (hV : SValid S) {j : Nat} {h : SHead α} (hj : S.head[j]? = some h) {o : Operation α}
    (ho : o ∈ (headParts S j h).ops) : ∃ f, ∃ t ∈ h.terms, o = .equal (.var f) t.norm ∧
      HeadFresh (negGen S) (headParts S j h).gen f ∧ t.isOper = true ∧ (∀ v ∈ t.outerVars, SSafe S v) ∧
      ∀ v ∈ t.norm.vars, SSafe S v ∨ (v = aggOut ∧ t.aggCount ≠ 0) := by
  obtain ⟨f, t, ht, rfl, hf, hop⟩ := normHeadLoop_ops_form ho
  have hs : ∀ v ∈ t.outerVars, SSafe S v := fun v hv =>
    hV.headTermSafe (List.mem_of_getElem? hj) ht (by rintro v rfl; simp [HTerm.isOper] at hop) (HTerm.outerVars_sub t hv)
  refine ⟨f, t, ht, rfl, hf.mono (Nat.le_add_right _ _) le_rfl, hop, hs, fun v hv => ?_⟩
  exact ((HTerm.mem_norm_vars v t).1 hv).imp_left (hs v)

theorem headParts_agg {j : Nat} {h : SHead α} {a : Nat × Operation α × List Variable}
    {outer : List Variable} {j' : Nat} (ha : (headParts S j h).agg = some (a, outer, j')) :
    ∃ t, h.terms[j']? = some t ∧ t.agg? = some a ∧ outer = t.norm.vars.filter fun v => !decide (v = aggOut) := by
  have := normHeadLoop_agg h.terms 0 (headsGen S.head (negGen S) j)
  rw [ha] at this
  obtain ⟨i, t, rfl, h1, h2, h3⟩ := this
  exact ⟨t, by simpa using h1, h2, h3⟩

theorem agg_not_var {t : HTerm α} {a : Nat × Operation α × List Variable} (h : t.agg? = some a) : ∀ v, t ≠ .var v := by
  rintro v rfl; simp [HTerm.agg?] at h

theorem agg_vars_safe (hV : SValid S) {h : SHead α} (hh : h ∈ S.head) {t : HTerm α} (ht : t ∈ h.terms)
    {a : Nat × Operation α × List Variable} (ha : t.agg? = some a) {v : Variable} (hv : v ∈ a.2.1.vars ++ a.2.2) : SSafe S v :=
  hV.headTermSafe hh ht (agg_not_var ha) (HTerm.agg?_vars t (k := a.1) (i := a.2.1) (d := a.2.2) ha hv)

/-! ## From the normalized body to the body -/

theorem bodyHolds_source (hV : SValid S) {P N : Interp α} {σ : Variable → α} (hB : BodyHolds (normalizeRule S order) P N σ) :
    SBody S P N σ := by
  refine ⟨?_, ?_, ?_, ?_, ?_, ?_⟩
  · intro a ha
    obtain ⟨k, hk⟩ := exists_atomAt 0 ha
    refine ⟨_, hB.pos _ ((mem_norm_pos S order _).2 ⟨a, k, hk, rfl⟩), ?_⟩
    refine normBodyTerms_sound a.terms [] k σ fun o ho => ?_
    exact hB.ops o ((mem_norm_ops S order o).2 (.inr (.inl ⟨a, k, hk, ho⟩))) fun v hv => pos_op_safe order hV hk ho hv
  · intro o ho hv
    exact hB.ops o ((mem_norm_ops S order o).2 (.inl ho)) fun v h => (hv v h).norm order hV
  · rintro a ha ⟨τ, row, ht, hN, hm, hops⟩
    obtain ⟨k, hk⟩ := exists_atomAt (posGen S) ha
    have hua := hV.userNeg ha
    obtain ⟨τ1, s1, s2, s3⟩ := normBodyTerms_complete a.terms hua [] k τ row hm
    have user1 : ∀ v, ¬ v.Reserved → τ1 v = τ v := fun v hv => s1 v fun hc => hv hc.reserved
    -- the valuation for the normalized rule
    classical
    obtain ⟨τ', hτ'⟩ : ∃ τ' : Variable → α, τ' = fun v => if BodyFresh k (endGen a k) v then τ1 v else
      if NSafe S order v then σ v else τ1 v := ⟨_, rfl⟩
    have onUser : ∀ v, ¬ v.Reserved → τ' v = τ v := by
      intro v hv
      rw [hτ']; dsimp only
      rw [if_neg fun hc => hv (BodyFresh.reserved hc)]
      split
      · next h => exact (ht v (h.user order hV hv)).symm
      · exact user1 v hv
    have onFresh : ∀ v, BodyFresh k (endGen a k) v → τ' v = τ1 v := by
      intro v hv; rw [hτ']; exact if_pos hv
    have onSafe : ∀ v, NSafe S order v → τ' v = σ v := by
      intro v hv
      by_cases hf : BodyFresh k (endGen a k) v
      · rw [onFresh v hf]
        -- a safe new variable of the negated atom
        cases hv with
        | @atom x _ hx hxv =>
          obtain ⟨b, l, hl, rfl⟩ := (mem_norm_pos S order _).1 hx
          rcases normBodyTerms_vars b.terms [] l hxv with h | h
          · exact absurd hf.reserved ((hV.userPos hl.mem).1 v h.1)
          · exact (h.disjoint hf (le_trans hl.range.2 hk.range.1)).elim
        | @assign o e _ ho hs he =>
          have hall : ∀ w ∈ o.vars, NSafe S order w := by
            intro w hw
            have hs' := hs
            unfold Operation.variableAssignment at hs
            split at hs
            · cases hs
              rcases List.mem_append.1 hw with hw | hw
              · obtain rfl : w = v := by simpa [Operation.vars] using hw
                exact .assign ho rfl he
              · exact he w hw
            · cases hs
              rcases List.mem_append.1 hw with hw | hw
              · exact he w hw
              · obtain rfl : w = v := by simpa [Operation.vars] using hw
                exact .assign ho hs' he
            · cases hs
          have htru := hB.ops o ho hall
          have husr : ∀ w ∈ e.vars, ¬ w.Reserved → τ1 w = σ w := by
            intro w hw hu
            rw [user1 w hu]
            exact ht w (NSafe.user order hV (he w hw) hu)
          rcases (mem_norm_ops S order o).1 ho with h | ⟨b, l, hl, hb⟩ | ⟨b, l, hl, hb⟩ | ⟨j, h, h1, h2⟩ |
            ⟨j, h, x, outer, j', h1, h2, h3⟩
          · exact absurd hf.reserved (hV.userOps h (assignment_vars hs).1)
          · obtain ⟨f, e', rfl, hf', -⟩ := normBodyTerms_ops _ _ _ hb
            rw [Operation.variableAssignment] at hs; cases hs
            exact (hf'.disjoint hf (le_trans hl.range.2 hk.range.1)).elim
          · obtain ⟨f, e', rfl, hf', -, hr⟩ := neg_op_right hV hl hb
            rw [Operation.variableAssignment] at hs; cases hs
            rcases AtomAt.separate (R := fun _ _ => True) (List.pairwise_of_forall fun _ _ => trivial) hk hl with
              ⟨rfl, rfl⟩ | ⟨-, h⟩ | ⟨-, h⟩
            · have e1 := (eval_assign τ1 v e).1 (s3 _ hb)
              have e2 := (eval_assign σ v e).1 htru
              have e3 : e.eval τ1 = e.eval σ := by
                refine Operation.eval_congr e fun w hw => husr w hw ?_
                rcases hr w hw with h | h
                · exact h.user hV
                · exact hua.1 w h
              rw [e1, e2] at e3
              exact Option.some.inj e3
            · exact (hf.disjoint hf' h).elim
            · exact (hf'.disjoint hf h).elim
          · obtain ⟨f, t, _, rfl, hf', -⟩ := normHeadLoop_ops_form h2
            rw [Operation.variableAssignment] at hs; cases hs
            exact absurd hf hf'.not_body
          · rcases normAggInput_cases x.2.1 with ⟨w, -, hi⟩ | hi
            · rw [hi] at h3; cases h3
            · rw [hi, List.mem_singleton] at h3
              subst h3
              rw [Operation.variableAssignment] at hs; cases hs
              obtain ⟨k', _, _, e⟩ := hf
              exact absurd e.symm (fresh_ne_agg k').1
      · rw [hτ']; dsimp only
        rw [if_neg hf, if_pos hv]
    have onTerms : ∀ v ∈ (normBodyTerms a.terms [] k).1, τ' v = τ1 v := by
      intro v hv
      rcases normBodyTerms_vars a.terms [] k hv with h | h
      · rw [onUser v (hua.1 v h.1), user1 v (hua.1 v h.1)]
      · exact onFresh v h
    refine hB.neg _ ((mem_norm_neg S order _).2 ⟨a, k, hk, rfl⟩) ⟨τ', onSafe, ?_, ?_⟩
    · have : (normBodyTerms a.terms [] k).1.map τ' = row := by rw [← s2]; exact List.map_congr_left onTerms
      show N a.pred ((normBodyTerms a.terms [] k).1.map τ')
      rw [this]; exact hN
    · intro o ho hv
      -- operations on variables with a value
      have hsafe : (∀ v ∈ o.vars, NSafe S order v) → o.eval τ' = some Dom.tru := by
        intro hall
        rw [Operation.eval_congr o fun v hv => onSafe v (hall v hv)]
        exact hB.ops o ho hall
      rcases (mem_norm_ops S order o).1 ho with h | ⟨b, l, hl, hb⟩ | ⟨b, l, hl, hb⟩ | ⟨j, h, h1, h2⟩ |
        ⟨j, h, x, outer, j', h1, h2, h3⟩
      · rw [Operation.eval_congr o fun v hv => onUser v (hV.userOps h hv)]
        refine hops o h fun v hv' => ?_
        rcases hv v hv' with hs | hs
        · exact .inl (NSafe.user order hV hs (hV.userOps h hv'))
        · rcases normBodyTerms_vars a.terms [] k hs with h' | h'
          · exact .inr h'.1
          · exact absurd h'.reserved (hV.userOps h hv')
      · exact hsafe fun v hv => pos_op_safe order hV hl hb hv
      · obtain ⟨f, e, rfl, hf, hf', hr⟩ := neg_op_right hV hl hb
        have other : b ∈ S.negative → (∀ w, .var w ∈ a.terms → .var w ∈ b.terms → SSafe S w) →
            (∀ w, BodyFresh k (endGen a k) w → BodyFresh l (endGen b l) w → False) →
            (Operation.equal (.var f) e).eval τ' = some Dom.tru := by
          intro hbm hdis hfr
          refine hsafe fun w hw => ?_
          rcases hv w hw with h | h
          · exact h
          · have hin := normBodyTerms_vars a.terms [] k h
            rcases List.mem_append.1 hw with hw | hw
            · obtain rfl : w = f := by simpa [Operation.vars] using hw
              rcases hin with h' | h'
              · exact absurd hf.reserved (hua.1 w h'.1)
              · exact (hfr w h' hf).elim
            · rcases hr w hw with hs | hs
              · exact hs.norm order hV
              · rcases hin with h' | h'
                · exact (hdis w h'.1 hs).norm order hV
                · exact absurd h'.reserved ((hV.userNeg hbm).1 w hs)
        rcases AtomAt.separate hV.negDisjoint hk hl with ⟨rfl, rfl⟩ | ⟨hd, h⟩ | ⟨hd, h⟩
        · have : ∀ w ∈ (Operation.equal (.var f) e).vars, τ' w = τ1 w := by
            intro w hw
            rcases List.mem_append.1 hw with hw | hw
            · obtain rfl : w = f := by simpa [Operation.vars] using hw
              exact onFresh w hf
            · have hu : ¬ w.Reserved := by
                rcases hr w hw with h | h
                · exact h.user hV
                · exact hua.1 w h
              rw [onUser w hu, user1 w hu]
          rw [Operation.eval_congr _ this]
          exact s3 _ hb
        · exact other hl.mem (fun w h1 h2 => hd w h1 h2) fun w h1 h2 => h1.disjoint h2 h
        · exact other hl.mem (fun w h1 h2 => hd w h2 h1) fun w h1 h2 => h2.disjoint h1 h
      · obtain ⟨f, t, htm, rfl, hf, hop, -, hr⟩ := head_op_right hV h1 h2
        refine hsafe fun w hw => ?_
        rcases hv w hw with h | h
        · exact h
        · rcases List.mem_append.1 hw with hw | hw
          · obtain rfl : w = f := by simpa [Operation.vars] using hw
            rcases normBodyTerms_vars a.terms [] k h with h' | h'
            · exact absurd hf.reserved (hua.1 w h'.1)
            · exact absurd h' hf.not_body
          · rcases hr w hw with hs | ⟨rfl, -⟩
            · exact hs.norm order hV
            · rcases normBodyTerms_vars a.terms [] k h with h' | ⟨k', _, _, e⟩
              · exact absurd aggOut_reserved (hua.1 _ h'.1)
              · exact absurd e.symm (fresh_ne_agg k').2.1
      · obtain ⟨t, h4, h5, -⟩ := headParts_agg h2
        rcases normAggInput_cases x.2.1 with ⟨w, -, hi⟩ | hi
        · rw [hi] at h3; cases h3
        · rw [hi, List.mem_singleton] at h3
          subst h3
          have hin : ∀ w ∈ x.2.1.vars, NSafe S order w := fun w hw =>
            (agg_vars_safe hV (List.mem_of_getElem? h1) (List.mem_of_getElem? h4) h5
              (List.mem_append_left _ hw)).norm order hV
          refine hsafe fun w hw => ?_
          rcases List.mem_append.1 hw with hw | hw
          · obtain rfl : w = aggIn := by simpa [Operation.vars] using hw
            exact .assign ho rfl hin
          · exact hin w hw
  · intro a ha o ho
    obtain ⟨k, hk⟩ := exists_atomAt (posGen S) ha
    have aux : ∀ (ts : List (BTerm α)) used g, .oper o ∈ ts → ∃ f, .equal (.var f) o ∈ (normBodyTerms ts used g).2.1 := by
      intro ts
      induction ts with
      | nil => intro _ _ h; cases h
      | cons t ts ih =>
        intro used g h0
        rcases List.mem_cons.1 h0 with rfl | h
        · exact ⟨_, List.mem_cons_self⟩
        · cases t with
          | var v =>
            rw [normBodyTerms]
            split
            · obtain ⟨f, hf⟩ := ih used (g + 1) h; exact ⟨f, List.mem_cons_of_mem _ hf⟩
            · exact ih (v :: used) g h
          | anon => exact ih used (g + 1) h
          | const c => obtain ⟨f, hf⟩ := ih used (g + 1) h; exact ⟨f, List.mem_cons_of_mem _ hf⟩
          | oper c => obtain ⟨f, hf⟩ := ih used (g + 1) h; exact ⟨f, List.mem_cons_of_mem _ hf⟩
    obtain ⟨f, hf⟩ := aux a.terms [] k ho
    have hmem : .equal (.var f) o ∈ (normalizeRule S order).operations :=
      (mem_norm_ops S order _).2 (.inr (.inr (.inl ⟨a, k, hk, hf⟩)))
    have hr : ∀ w ∈ o.vars, NSafe S order w := fun w hw =>
      (hV.operSafe a (List.mem_append_right _ ha) o ho w hw).norm order hV
    have := hB.ops _ hmem fun w hw => by
      rcases List.mem_append.1 hw with hw | hw
      · obtain rfl : w = f := by simpa [Operation.vars] using hw
        exact .assign hmem rfl hr
      · exact hr w hw
    rw [(eval_assign σ f o).1 this]; simp
  · intro h hh t ht hc x
    by_cases hop : t.isOper = true
    · obtain ⟨j, hj⟩ := List.mem_iff_getElem?.1 hh
      obtain ⟨i, hi⟩ := List.mem_iff_getElem?.1 ht
      have hin := (mem_normHeadLoop_ops h.terms 0 (headsGen S.head (negGen S) j) _).2 ⟨i, t, hi, hop, rfl⟩
      have hmem := (mem_norm_ops S order _).2 (.inr (.inr (.inr (.inl ⟨j, h, hj, hin⟩))))
      have hr : ∀ w ∈ t.norm.vars, NSafe S order w := by
        intro w hw
        rcases (HTerm.mem_norm_vars w t).1 hw with h' | h'
        · exact (hV.headTermSafe hh ht (by rintro v rfl; simp [HTerm.isOper] at hop) (HTerm.outerVars_sub t h')).norm order hV
        · exact absurd hc h'.2
      have := hB.ops _ hmem fun w hw => by
        rcases List.mem_append.1 hw with hw | hw
        · obtain rfl : w = _ := by simpa [Operation.vars] using hw
          exact .assign hmem rfl hr
        · exact hr w hw
      have := (eval_assign σ _ _).1 this
      rw [HTerm.norm_eval, HTerm.value_indep σ _ x t hc] at this
      rw [this]; simp
    · cases t <;> simp_all [HTerm.isOper, HTerm.value]
  · intro h hh t ht k i d ha
    obtain ⟨j, hj⟩ := List.mem_iff_getElem?.1 hh
    have hne : (headParts S j h).agg ≠ none := by
      intro hc
      have := normHeadLoop_agg h.terms 0 (headsGen S.head (negGen S) j)
      rw [hc] at this
      rw [this t ht] at ha; cases ha
    obtain ⟨⟨x, outer, j'⟩, hx⟩ := Option.ne_none_iff_exists'.1 hne
    obtain ⟨t', h4, h5, -⟩ := headParts_agg hx
    have hcnt : ∀ {t : HTerm α} {a}, t.agg? = some a → t.aggCount ≠ 0 := by
      intro t a h hc; rw [(HTerm.agg?_none t).2 hc] at h; cases h
    obtain ⟨l, hl⟩ := List.mem_iff_getElem?.1 ht
    have := HTerm.aggCountList_unique (hV.oneAgg h hh) hl h4 (hcnt ha) (hcnt h5)
    subst this
    rw [hl] at h4; cases h4
    rw [ha] at h5; cases h5
    rcases normAggInput_cases i with ⟨w, rfl, hi⟩ | hi
    · simp [Operation.eval]
    · have hmem := (mem_norm_ops S order (.equal (.var aggIn) i)).2 (.inr (.inr (.inr (.inr
        ⟨j, h, _, _, _, hj, hx, by rw [hi]; exact List.mem_singleton.2 rfl⟩))))
      have hin : ∀ w ∈ i.vars, NSafe S order w := fun w hw =>
        (agg_vars_safe hV hh ht ha (List.mem_append_left _ hw)).norm order hV
      have := hB.ops _ hmem fun w hw => by
        rcases List.mem_append.1 hw with hw | hw
        · obtain rfl : w = aggIn := by simpa [Operation.vars] using hw
          exact .assign hmem rfl hin
        · exact hin w hw
      rw [(eval_assign σ _ _).1 this]; simp

/-! ## From the body to the normalized body -/

theorem SAtom.Matches.congr {a : SAtom α} (hu : UserTerms a.terms) {σ τ : Variable → α} (h : ∀ v, ¬ v.Reserved → τ v = σ v)
    {row : List α} (hm : a.Matches σ row) : a.Matches τ row := by
  have aux : ∀ ts : List (BTerm α), UserTerms ts → ∀ row, List.Forall₂ (BTerm.Matches σ) ts row →
      List.Forall₂ (BTerm.Matches τ) ts row := by
    intro ts hts row hr
    induction hr with
    | nil => exact .nil
    | @cons t b ts row ht _ ih =>
      refine .cons ?_ (ih hts.tail)
      cases t with
      | var v => exact (h v (hts.1 v List.mem_cons_self)).trans ht
      | anon => trivial
      | const a => exact ht
      | oper o =>
        show o.eval τ = _
        rw [Operation.eval_congr o fun v hv => h v (hts.2 o List.mem_cons_self v hv)]; exact ht
  exact aux _ hu _ hm

/-- There is only one aggregate. -/
theorem agg_unique (hV : SValid S) {j l : Nat} {h h' : SHead α} (hj : S.head[j]? = some h) (hl : S.head[l]? = some h')
    {x y : (Nat × Operation α × List Variable) × List Variable × Nat} (hx : (headParts S j h).agg = some x)
    (hy : (headParts S l h').agg = some y) : j = l ∧ h = h' ∧ x = y := by
  have hcnt : ∀ {t : HTerm α} {a}, t.agg? = some a → t.aggCount ≠ 0 := by
    intro t a h hc; rw [(HTerm.agg?_none t).2 hc] at h; cases h
  obtain ⟨t, h1, h2, -⟩ := headParts_agg (a := x.1) (outer := x.2.1) (j' := x.2.2) hx
  obtain ⟨t', h1', h2', -⟩ := headParts_agg (a := y.1) (outer := y.2.1) (j' := y.2.2) hy
  have := hV.oneAggAtom j l h h' hj hl ⟨t, List.mem_of_getElem? h1, hcnt h2⟩ ⟨t', List.mem_of_getElem? h1', hcnt h2'⟩
  subst this
  rw [hj] at hl; cases hl
  rw [hx] at hy; cases hy
  exact ⟨rfl, rfl, rfl⟩

theorem source_bodyHolds (hV : SValid S) {P N : Interp α} {σ : Variable → α} (hB : SBody S P N σ) :
    ∃ σ' : Variable → α, (∀ v, ¬ v.Reserved → σ' v = σ v) ∧ BodyHolds (normalizeRule S order) P N σ' := by
  classical
  -- values for the new variables of the body
  obtain ⟨σ1, s1, s2, s3⟩ := normBodyAtoms_complete S.positive (fun a ha => hV.userPos ha) 0 σ (fun a row => P a.pred row)
    hB.pos
  have u1 : ∀ v, ¬ v.Reserved → σ1 v = σ v := fun v hv => s1 v fun hc => hv hc.reserved
  have hneg : ∀ a ∈ S.negative, ∃ row, True ∧ a.Matches σ1 row := by
    intro a ha
    obtain ⟨row, hr⟩ := exists_match a.terms σ fun o ho => hB.defined.neg a ha o ho
    exact ⟨row, trivial, SAtom.Matches.congr (hV.userNeg ha) u1 hr⟩
  obtain ⟨σ2, t1, -, t3⟩ := normBodyAtoms_complete S.negative (fun a ha => hV.userNeg ha) (posGen S) σ1 (fun _ _ => True) hneg
  have u2 : ∀ v, ¬ v.Reserved → σ2 v = σ v := fun v hv => (t1 v fun hc => hv hc.reserved).trans (u1 v hv)
  -- the aggregated value
  obtain ⟨c, hc⟩ : ∃ c : α, ∀ (j : Nat) (h : SHead α) x outer j', S.head[j]? = some h →
      (headParts S j h).agg = some (x, outer, j') → x.2.1.eval σ = some c := by
    by_cases hex : ∃ (j : Nat) (h : SHead α) (x : Nat × Operation α × List Variable) (outer : List Variable) (j' : Nat),
        S.head[j]? = some h ∧ (headParts S j h).agg = some (x, outer, j')
    · obtain ⟨j, h, x, outer, j', h1, h2⟩ := hex
      obtain ⟨t, h4, h5, -⟩ := headParts_agg h2
      obtain ⟨c, hc⟩ := Option.ne_none_iff_exists'.1
        (hB.defined.agg h (List.mem_of_getElem? h1) t (List.mem_of_getElem? h4) x.1 x.2.1 x.2.2 h5)
      refine ⟨c, fun l h' y outer' l' h1' h2' => ?_⟩
      obtain ⟨-, -, e⟩ := agg_unique hV h1 h1' h2 h2'
      cases e
      exact hc
    · exact ⟨Dom.tru, fun j h x outer j' h1 h2 => absurd ⟨j, h, x, outer, j', h1, h2⟩ hex⟩
  obtain ⟨σ3, hσ3⟩ : ∃ σ3 : Variable → α, σ3 = fun v => if v = aggIn then c else σ2 v := ⟨_, rfl⟩
  have u3 : ∀ v, v ≠ aggIn → σ3 v = σ2 v := by intro v hv; rw [hσ3]; exact if_neg hv
  -- values for the new variables of the head
  obtain ⟨σ4, w1, w2⟩ := normHeadAtoms_assign S.head (fun h hh => hV.userHead hh) 0 (negGen S) σ3
  have k4 : ∀ v, (¬ v.Reserved ∨ (∃ g g', BodyFresh g g' v) ∨ v = aggIn) → σ4 v = σ3 v := by
    intro v hv
    refine w1 v fun g' hf => ?_
    rcases hv with hv | ⟨_, _, hv⟩ | hv
    · exact hv hf.reserved
    · exact hf.not_body hv
    · exact hf.ne_aggIn hv
  have user : ∀ v, ¬ v.Reserved → σ4 v = σ v := by
    intro v hv
    rw [k4 v (.inl hv), u3 v (by rintro rfl; exact hv aggIn_reserved), u2 v hv]
  have keep2 : ∀ v, (¬ v.Reserved ∨ ∃ g g', BodyFresh g g' v) → σ4 v = σ2 v := by
    intro v hv
    rw [k4 v (hv.imp_right .inl), u3 v]
    rintro rfl
    rcases hv with hv | ⟨_, _, k, _, _, e⟩
    · exact hv aggIn_reserved
    · exact (fresh_ne_agg k).1 e.symm
  have keep1 : ∀ v, (¬ v.Reserved ∨ BodyFresh 0 (posGen S) v) → σ4 v = σ1 v := by
    intro v hv
    rw [keep2 v (hv.imp_right fun h => ⟨_, _, h⟩), t1 v]
    rintro h
    rcases hv with hv | hv
    · exact hv h.reserved
    · exact hv.disjoint h le_rfl
  refine ⟨σ4, user, ?_, ?_, ?_⟩
  · intro x hx
    obtain ⟨a, k, hk, rfl⟩ := (mem_norm_pos S order _).1 hx
    have : (normBodyTerms a.terms [] k).1.map σ4 = (normBodyTerms a.terms [] k).1.map σ1 := by
      refine List.map_congr_left fun v hv => keep1 v ?_
      exact (normBodyTerms_vars a.terms [] k hv).imp (fun h => (hV.userPos hk.mem).1 v h.1)
        fun h => h.mono hk.range.1 hk.range.2
    show P a.pred ((normBodyTerms a.terms [] k).1.map σ4)
    rw [this]
    exact s2 a k hk
  · intro o ho hsafe
    rcases (mem_norm_ops S order o).1 ho with h | ⟨b, l, hl, hb⟩ | ⟨b, l, hl, hb⟩ | ⟨j, h, h1, h2⟩ |
      ⟨j, h, x, outer, j', h1, h2, h3⟩
    · rw [Operation.eval_congr o fun v hv => user v (hV.userOps h hv)]
      exact hB.ops o h fun v hv => NSafe.user order hV (hsafe v hv) (hV.userOps h hv)
    · rw [Operation.eval_congr o fun v hv => keep1 v ((normBodyTerms_opVars (hV.userPos hl.mem) hb hv).imp_right
        fun h => h.mono hl.range.1 hl.range.2)]
      exact s3 o ((mem_normBodyAtoms_ops _ _ _).2 ⟨b, l, hl, hb⟩)
    · rw [Operation.eval_congr o fun v hv => keep2 v ((normBodyTerms_opVars (hV.userNeg hl.mem) hb hv).imp_right
        fun h => ⟨_, _, h⟩)]
      exact t3 o ((mem_normBodyAtoms_ops _ _ _).2 ⟨b, l, hl, hb⟩)
    · obtain ⟨f, t, ht, rfl, hf, hop, -, hr⟩ := head_op_right hV h1 h2
      refine w2 j h f _ h1 h2 ?_
      have hcnt : t.aggCount = 0 := by
        by_contra hne
        refine NSafe.ne_aggOut order hV (hsafe aggOut (List.mem_append_right _ ?_)) rfl
        exact (HTerm.mem_norm_vars aggOut t).2 (.inr ⟨rfl, hne⟩)
      rw [HTerm.norm_eval, HTerm.value_congr (τ := σ)]
      · exact hB.defined.head h (List.mem_of_getElem? h1) t ht hcnt _
      · intro v hv
        have hu := hV.userHead (List.mem_of_getElem? h1) t ht v (HTerm.outerVars_sub t hv)
        rw [u3 v (by rintro rfl; exact hu aggIn_reserved), u2 v hu]
    · obtain ⟨t, h4, h5, -⟩ := headParts_agg h2
      rcases normAggInput_cases x.2.1 with ⟨w, -, hi⟩ | hi
      · rw [hi] at h3; cases h3
      · rw [hi, List.mem_singleton] at h3
        subst h3
        rw [eval_assign, k4 aggIn (.inr (.inr rfl)), hσ3]
        simp only [if_true]
        rw [← hc j h x outer j' h1 h2]
        refine Operation.eval_congr _ fun v hv => user v ?_
        exact (agg_vars_safe hV (List.mem_of_getElem? h1) (List.mem_of_getElem? h4) h5
          (List.mem_append_left _ hv)).user hV
  · intro x hx
    obtain ⟨a, k, hk, rfl⟩ := (mem_norm_neg S order _).1 hx
    rintro ⟨τ, ht, hN, hops⟩
    refine hB.neg a hk.mem ⟨τ, _, ?_, hN, ?_, ?_⟩
    · intro v hv
      rw [ht v (hv.norm order hV), user v (hv.user hV)]
    · refine normBodyTerms_sound a.terms [] k τ fun o ho => ?_
      refine hops o ((mem_norm_ops S order o).2 (.inr (.inr (.inl ⟨a, k, hk, ho⟩)))) fun v hv => ?_
      obtain ⟨f, e, rfl, hf, hf', hr⟩ := neg_op_right hV hk ho
      rcases List.mem_append.1 hv with hv | hv
      · obtain rfl : v = f := by simpa [Operation.vars] using hv
        exact .inr hf'
      · exact (hr v hv).imp (fun h => h.norm order hV) fun h => (normBodyTerms_has a.terms [] k h).resolve_left (by simp)
    · intro o ho hv
      refine hops o ((mem_norm_ops S order o).2 (.inl ho)) fun v hv' => ?_
      exact (hv v hv').imp (fun h => h.norm order hV) fun h => (normBodyTerms_has a.terms [] k h).resolve_left (by simp)

end
end Verif
