import Verif.DataDomainProofs

/-!
# Operations of rules are evaluated like their function trees
-/
set_option linter.unusedSimpArgs false
set_option linter.unusedVariables false
set_option linter.unusedSectionVars false

namespace Verif.Data
open Verif.Fn

/-- `OperationNumArguments::validate` (operation_kind.rs:24-37, 73-404), except that functions of any number of arguments need
one, unless they are Boolean. -/
def OpFn.args : OpFn → Nat → Prop
  | .un _, n => n = 1
  | .bin _, n => n = 2
  | .substring, n => n = 2 ∨ n = 3
  | .nary f, n => n ≠ 0 ∨ f = .conjunction ∨ f = .disjunction

section
variable {α : Type} [SVal α] {dict : DV → Nat} (val : α → DV) (sto : DV → α)

mutual
/-- `function_tree` (operation.rs:252-354); `none` is a panic.  Variables stay variables: the translation into columns
(operation.rs:258-262) is a renaming. -/
def functionTree : Operation α → Option (Tree Variable)
  | .var v => some (.ref v)
  | .const a => some (.const (val a))
  | .equal l r => do
      let a ← functionTree l
      let b ← functionTree r
      opTree (.bin .equals) [a, b]
  | .op k ts => do
      let as ← functionTrees ts
      let f ← opFn k
      opTree f as
/-- the function trees of several operations (operation.rs:266-269) -/
def functionTrees : List (Operation α) → Option (List (Tree Variable))
  | [] => some []
  | t :: ts => do
      let a ← functionTree t
      let as ← functionTrees ts
      some (a :: as)
end

mutual
/-- Every function of an operation exists and has the right number of arguments. -/
def WellFormed : Operation α → Prop
  | .var _ => True
  | .const _ => True
  | .equal l r => WellFormed l ∧ WellFormed r
  | .op k ts => (∃ f, opFn k = some f ∧ OpFn.args f ts.length) ∧ WellFormedList ts
/-- `WellFormed` for every element -/
def WellFormedList : List (Operation α) → Prop
  | [] => True
  | t :: ts => WellFormed t ∧ WellFormedList ts
end

/-- The meaning of the function tree of an operation (C14), if the variables have the values `σ`. -/
def treeValue (L : Lib) (σ : Variable → α) (t : Tree Variable) : Res DV := t.sem (Fn.sem L) fun v => some (val (σ v))

mutual
/-- No function is applied to a floating point zero that was computed (the sign of a zero is lost if it is stored). -/
def Clean (L : Lib) (σ : Variable → α) : Operation α → Prop
  | .var _ => True
  | .const _ => True
  | .equal l r => Clean L σ l ∧ Clean L σ r
  | .op _ ts => CleanList L σ ts
/-- `Clean` for every argument of a function -/
def CleanList (L : Lib) (σ : Variable → α) : List (Operation α) → Prop
  | [] => True
  | t :: ts => Clean L σ t ∧ (∀ t' d, functionTree val t = some t' → treeValue val L σ t' = .val d → d = val (sto d) ∨ d.NoZero) ∧
      CleanList L σ ts
end

end

section
variable {α : Type} [SVal α] {dict : DV → Nat} {val : α → DV} {sto : DV → α}

theorem got_bind {A B : Type} (x : Res A) (f : A → Res B) : got (x >>= f) = (got x).bind fun a => got (f a) := by
  cases x <;> rfl

theorem got_same {r s : Res DV} (h : StoresValues dict val sto) (e : SameRes r s) : (got r).map sto = (got s).map sto := by
  rcases e with rfl | ⟨v, w, rfl, rfl, e⟩
  · rfl
  · simp only [got, Option.map_some, (h.sto_eq v w).2 e]

theorem semList_val {R : Type} {S : Sem DV UFn BFn TFn NFn} {env : R → Option DV} :
    ∀ {ts : List (Tree R)} {ds : List DV}, FTree.semList S env ts = .val ds ↔ List.Forall₂ (fun t d => t.sem S env = .val d) ts ds
  | [], ds => by cases ds <;> simp [FTree.semList]
  | t :: ts, ds => by
    simp only [FTree.semList, Res.bind_eq_val, Res.val.injEq]
    constructor
    · rintro ⟨x, hx, xs, hxs, rfl⟩
      exact .cons hx (semList_val.1 hxs)
    · intro h
      cases h with
      | cons h1 h2 => exact ⟨_, h1, _, semList_val.2 h2, rfl⟩

theorem semList_const {R : Type} (S : Sem DV UFn BFn TFn NFn) (env : R → Option DV) (ws : List DV) :
    FTree.semList S env (ws.map fun v => (.const v : Tree R)) = .val ws := by
  rw [semList_val]
  induction ws with
  | nil => exact .nil
  | cons w ws ih => exact .cons rfl ih

/-- An operation has a tree if the number of arguments is right. -/
theorem opTree_some {R : Type} {f : OpFn} {ts : List (Tree R)} (ha : OpFn.args f ts.length) (hn : FTree.NaryOKList ts) :
    ∃ t, opTree f ts = some t ∧ t.NaryOK := by
  cases f with
  | un g =>
    obtain ⟨a, rfl⟩ := List.length_eq_one_iff.1 ha
    exact ⟨_, rfl, hn.1⟩
  | bin g =>
    obtain ⟨a, b, rfl⟩ := List.length_eq_two.1 ha
    exact ⟨_, rfl, hn.1, hn.2.1⟩
  | substring =>
    rcases ha with ha | ha
    · obtain ⟨a, b, rfl⟩ := List.length_eq_two.1 ha
      exact ⟨_, rfl, hn.1, hn.2.1⟩
    · obtain ⟨a, b, c, rfl⟩ := List.length_eq_three.1 ha
      exact ⟨_, rfl, hn.1, hn.2.1, hn.2.2.1⟩
  | nary g =>
    rcases ts with _ | ⟨a, _ | ⟨b, ts⟩⟩
    · rcases ha with ha | rfl | rfl
      · exact absurd rfl ha
      · exact ⟨_, rfl, trivial⟩
      · exact ⟨_, rfl, trivial⟩
    · cases g <;> first
        | exact ⟨_, rfl, hn.1⟩
        | exact ⟨_, rfl, by simp, hn⟩
    · cases g <;> exact ⟨_, rfl, by simp, hn⟩

/-- **Applying an operation to arguments.**  If all arguments have a value, the tree has the value of the function applied to
these values (which may be represented in another way); otherwise it has none. -/
theorem opTree_sem {R : Type} {L : Lib} (hL : LibOK L) {env : R → Option DV} {f : OpFn} {ts : List (Tree R)} {t : Tree R}
    (ha : OpFn.args f ts.length) (ht : opTree f ts = some t) :
    (∀ ds ws, FTree.semList (Fn.sem L) env ts = .val ds → List.Forall₂ Sim ds ws →
      ∃ v, SameRes (t.sem (Fn.sem L) env) v ∧ applyFn L f ws = got v) ∧
    (got (FTree.semList (Fn.sem L) env ts) = none → got (t.sem (Fn.sem L) env) = none) := by
  have apply_of : ∀ (ws : List DV) (t' : Tree Empty), opTree f (ws.map fun v => (.const v : Tree Empty)) = some t' →
      applyFn L f ws = got (t'.sem (Fn.sem L) fun e => e.elim) := by
    intro ws t' h
    rw [applyFn, h]
    rfl
  cases f with
  | un g =>
    obtain ⟨a, rfl⟩ := List.length_eq_one_iff.1 ha
    cases ht
    constructor
    · intro ds ws hd hs
      rw [semList_val] at hd
      cases hd with | cons h1 h2 => cases h2; cases hs with | cons s1 s2 => cases s2; exact
        ⟨unEval L g _, by simp only [FTree.sem, h1, Res.bind_val]; exact unEval_sim hL g s1, apply_of [_] (.un g (.const _)) rfl⟩
    · intro h
      simp only [FTree.semList, got_bind, FTree.sem] at h ⊢
      cases hx : got (a.sem (Fn.sem L) env) with
      | none => rfl
      | some x => rw [hx] at h; simp [got] at h
  | bin g =>
    obtain ⟨a, b, rfl⟩ := List.length_eq_two.1 ha
    cases ht
    constructor
    · intro ds ws hd hs
      rw [semList_val] at hd
      cases hd with | cons h1 h2 => cases h2 with | cons h2 h3 => cases h3; cases hs with | cons s1 s2 => cases s2 with | cons s2 s3 => cases s3; exact
        ⟨binEval L g _ _, by
          simp only [FTree.sem, h1, h2, Res.bind_val]
          exact .inl (binEval_sim L g s1 s2), apply_of [_, _] (.bin g (.const _) (.const _)) rfl⟩
    · intro h
      simp only [FTree.semList, got_bind, FTree.sem] at h ⊢
      cases hx : got (a.sem (Fn.sem L) env) with
      | none => rfl
      | some x =>
        cases hy : got (b.sem (Fn.sem L) env) with
        | none => rfl
        | some y => rw [hx, hy] at h; simp [got] at h
  | substring =>
    rcases ha with ha | ha
    · obtain ⟨a, b, rfl⟩ := List.length_eq_two.1 ha
      cases ht
      constructor
      · intro ds ws hd hs
        rw [semList_val] at hd
        cases hd with | cons h1 h2 => cases h2 with | cons h2 h3 => cases h3; cases hs with | cons s1 s2 => cases s2 with | cons s2 s3 => cases s3; exact
          ⟨binEval L .strSubstring _ _, by
            simp only [FTree.sem, h1, h2, Res.bind_val]
            exact .inl (binEval_sim L .strSubstring s1 s2), apply_of [_, _] (.bin .strSubstring (.const _) (.const _)) rfl⟩
      · intro h
        simp only [FTree.semList, got_bind, FTree.sem] at h ⊢
        cases hx : got (a.sem (Fn.sem L) env) with
        | none => rfl
        | some x =>
          cases hy : got (b.sem (Fn.sem L) env) with
          | none => rfl
          | some y => rw [hx, hy] at h; simp [got] at h
    · obtain ⟨a, b, c, rfl⟩ := List.length_eq_three.1 ha
      cases ht
      constructor
      · intro ds ws hd hs
        rw [semList_val] at hd
        cases hd with | cons h1 h2 => cases h2 with | cons h2 h3 => cases h3 with | cons h3 h4 => cases h4; cases hs with | cons s1 s2 => cases s2 with | cons s2 s3 => cases s3 with | cons s3 s4 => cases s4; exact
          ⟨terEval L .strSubstringLength _ _ _, by
            simp only [FTree.sem, h1, h2, h3, Res.bind_val]
            exact .inl (terEval_sim L _ s1 s2 s3), apply_of [_, _, _] (.ter .strSubstringLength (.const _) (.const _) (.const _)) rfl⟩
      · intro h
        simp only [FTree.semList, got_bind, FTree.sem] at h ⊢
        cases hx : got (a.sem (Fn.sem L) env) with
        | none => rfl
        | some x =>
          cases hy : got (b.sem (Fn.sem L) env) with
          | none => rfl
          | some y =>
            cases hz : got (c.sem (Fn.sem L) env) with
            | none => rfl
            | some z => rw [hx, hy, hz] at h; simp [got] at h
  | nary g =>
    have general : ∀ (us : List (Tree R)), (∀ ds ws, FTree.semList (Fn.sem L) env us = .val ds → List.Forall₂ Sim ds ws →
        SameRes ((FTree.nary g us : Tree R).sem (Fn.sem L) env)
          ((FTree.nary g (ws.map fun v => (.const v : Tree Empty)) : Tree Empty).sem (Fn.sem L) fun e => e.elim)) ∧
        (got (FTree.semList (Fn.sem L) env us) = none → got ((FTree.nary g us : Tree R).sem (Fn.sem L) env) = none) := by
      intro us
      constructor
      · intro ds ws hd hs
        simp only [FTree.sem, hd, semList_const, Res.bind_val]
        exact .inl (naryEval_sim L g hs)
      · intro h
        simp only [FTree.sem, got_bind, h]
        rfl
    rcases ts with _ | ⟨a, _ | ⟨b, ts⟩⟩
    · constructor
      · intro ds ws hd hs
        rw [semList_val] at hd
        cases hd
        cases hs
        rcases ha with ha | rfl | rfl
        · exact absurd rfl ha
        · cases ht; exact ⟨_, .inl rfl, rfl⟩
        · cases ht; exact ⟨_, .inl rfl, rfl⟩
      · intro h; simp [FTree.semList, got] at h
    · by_cases hc : g = .concat
      · subst hc
        cases ht
        refine ⟨fun ds ws hd hs => ⟨_, (general _).1 ds ws hd hs, apply_of _ _ ?_⟩, (general _).2⟩
        rw [semList_val] at hd
        cases hd with | cons h1 h2 => cases h2; cases hs with | cons s1 s2 => cases s2; rfl
      · have : t = a := by cases g <;> first | exact absurd rfl hc | (cases ht; rfl)
        subst this
        constructor
        · intro ds ws hd hs
          rw [semList_val] at hd
          cases hd with | cons h1 h2 => cases h2; cases hs with | cons s1 s2 =>
            cases s2
            refine ⟨.val _, .inr ⟨_, _, h1, rfl, s1.eq⟩, ?_⟩
            refine apply_of _ (.const _) ?_
            cases g <;> first | exact absurd rfl hc | rfl
        · intro h
          simp only [FTree.semList, got_bind] at h
          cases hx : got (t.sem (Fn.sem L) env) with
          | none => rfl
          | some x => rw [hx] at h; simp [got] at h
    · have : t = .nary g (a :: b :: ts) := by cases g <;> (cases ht; rfl)
      subst this
      refine ⟨fun ds ws hd hs => ⟨_, (general _).1 ds ws hd hs, apply_of _ _ ?_⟩, (general _).2⟩
      rw [semList_val] at hd
      cases hd with | cons h1 h2 => cases h2 with | cons h2 h3 => cases hs with | cons s1 s2 => cases s2 with | cons s2 s3 =>
        cases g <;> rfl

theorem sims {L : Lib} (h : StoresValues dict val sto) {σ : Variable → α} :
    ∀ {os : List (Operation α)} {ts : List (Tree Variable)} {ds : List DV}, functionTrees val os = some ts →
      CleanList val sto L σ os → FTree.semList (Fn.sem L) (fun v => some (val (σ v))) ts = .val ds →
      List.Forall₂ Sim ds (ds.map fun d => val (sto d))
  | [], ts, ds, ht, _, hd => by
    cases ht
    rw [semList_val] at hd
    cases hd
    exact .nil
  | o :: os, ts, ds, ht, hc, hd => by
    simp only [functionTrees, Option.bind_eq_bind, Option.bind_eq_some_iff, Option.some.injEq] at ht
    obtain ⟨a, ha, as, has, rfl⟩ := ht
    rw [semList_val] at hd
    cases hd with
    | cons h1 h2 =>
      refine .cons ?_ (sims h has hc.2.2 (semList_val.2 h2))
      rcases hc.2.1 a _ ha h1 with e | e
      · exact .inl e
      · exact .inr ⟨e, DV.eq_equivalence.symm (val_sto h _)⟩

section
variable [DecidableEq α] (L : Lib) (hL : LibOK L) (h : StoresValues dict val sto)
include hL

mutual
theorem eval_tree_aux (σ : Variable → α) : ∀ (o : Operation α), WellFormed o → Clean val sto L σ o →
    ∃ t, functionTree val o = some t ∧ t.NaryOK ∧
      (letI := dataDom L h; o.eval σ) = (got (treeValue val L σ t)).map sto
  | .var v, _, _ => ⟨_, rfl, trivial, by simp [Operation.eval, treeValue, FTree.sem, Res.ofOption, got, h.sto_val]⟩
  | .const a, _, _ => ⟨_, rfl, trivial, by simp [Operation.eval, treeValue, FTree.sem, got, h.sto_val]⟩
  | .equal l r, hw, hc => by
    obtain ⟨a, ha, na, ea⟩ := eval_tree_aux σ l hw.1 hc.1
    obtain ⟨b, hb, nb, eb⟩ := eval_tree_aux σ r hw.2 hc.2
    refine ⟨.bin .equals a b, by simp only [functionTree, ha, hb, Option.bind_eq_bind, Option.bind_some]; rfl, ⟨na, nb⟩, ?_⟩
    simp only [Operation.eval, ea, eb, treeValue, FTree.sem, got_bind]
    simp only [Option.bind_eq_bind]
    cases got (FTree.sem (Fn.sem L) (fun v => some (val (σ v))) a) with
    | none => rfl
    | some x =>
      cases got (FTree.sem (Fn.sem L) (fun v => some (val (σ v))) b) with
      | none => rfl
      | some y =>
        simp only [Option.map_some, Option.bind_some, Option.pure_def, Fn.sem, binEval, got, Option.some.injEq]
        by_cases e : x.eq y = true
        · rw [if_pos ((h.sto_eq x y).2 e), e]; rfl
        · rw [if_neg (fun e' => e ((h.sto_eq x y).1 e')), Bool.eq_false_iff.2 e]; rfl
  | .op k os, hw, hc => by
    obtain ⟨⟨f, hf, hargs⟩, hw⟩ := hw
    obtain ⟨ts, hts, hlen, hn, e⟩ := eval_trees_aux σ os hw hc
    rw [← hlen] at hargs
    obtain ⟨t, ht, hnt⟩ := opTree_some hargs hn
    refine ⟨t, by simp only [functionTree, hts, hf, Option.bind_eq_bind, Option.bind_some]; exact ht, hnt, ?_⟩
    obtain ⟨k1, k2⟩ := opTree_sem hL (env := fun v => some (val (σ v))) hargs ht
    simp only [Operation.eval, e, Option.bind_eq_bind]
    cases hg : FTree.semList (Fn.sem L) (fun v => some (val (σ v))) ts with
    | val ds =>
      obtain ⟨v, hv1, hv2⟩ := k1 ds _ hg (sims h hts hc hg)
      simp only [got, Option.map_some, Option.bind_some]
      change ((opFn k).bind fun f => applyFn L f ((ds.map sto).map val)).map sto = _
      rw [hf, Option.bind_some, List.map_map]
      change (applyFn L f (ds.map fun d => val (sto d))).map sto = _
      rw [hv2]
      exact (got_same h hv1).symm
    | undef =>
      have := k2 (by rw [hg]; rfl)
      simp only [treeValue, this]
      rfl
    | panic =>
      have := k2 (by rw [hg]; rfl)
      simp only [treeValue, this]
      rfl
theorem eval_trees_aux (σ : Variable → α) : ∀ (os : List (Operation α)), WellFormedList os → CleanList val sto L σ os →
    ∃ ts, functionTrees val os = some ts ∧ ts.length = os.length ∧ FTree.NaryOKList ts ∧
      (letI := dataDom L h; Operation.evalList σ os) =
        (got (FTree.semList (Fn.sem L) (fun v => some (val (σ v))) ts)).map (List.map sto)
  | [], _, _ => ⟨[], rfl, rfl, trivial, rfl⟩
  | o :: os, hw, hc => by
    obtain ⟨a, ha, na, ea⟩ := eval_tree_aux σ o hw.1 hc.1
    obtain ⟨as, has, hlen, nas, eas⟩ := eval_trees_aux σ os hw.2 hc.2.2
    refine ⟨a :: as, by simp only [functionTrees, ha, has, Option.bind_eq_bind, Option.bind_some], by simp [hlen], ⟨na, nas⟩, ?_⟩
    simp only [Operation.evalList, ea, eas, treeValue, FTree.semList, got_bind, Option.bind_eq_bind]
    cases got (FTree.sem (Fn.sem L) (fun v => some (val (σ v))) a) with
    | none => rfl
    | some x =>
      cases got (FTree.semList (Fn.sem L) (fun v => some (val (σ v))) as) <;> rfl
end

end

/-- **Operations of rules are evaluated like their function trees.**  Every operation in which functions have the right number of
arguments has a function tree, whose stack program can be built (`NaryOK`, see C14), and the value of the operation in the domain
of data values is the value that is computed by this tree, as it is stored. -/
theorem eval_tree [DecidableEq α] {L : Lib} (hL : LibOK L) (h : StoresValues dict val sto) (σ : Variable → α) (o : Operation α)
    (hw : WellFormed o) (hc : Clean val sto L σ o) : ∃ t, functionTree val o = some t ∧ t.NaryOK ∧
      (letI := dataDom L h; o.eval σ) = (got (t.sem (Fn.sem L) fun v => some (val (σ v)))).map sto :=
  eval_tree_aux L hL h σ o hw hc

end
end Verif.Data
