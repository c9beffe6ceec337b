import Verif.TreeQuery
import Verif.PropTrace

/-!
# C65: tree queries explain all given facts at once
-/

set_option linter.unusedSimpArgs false
set_option linter.unusedSectionVars false

namespace Verif.Trace.TreeQ
variable {α : Type} [DecidableEq α] [Dom α]

/-! ## Specification -/

/-- **Genuine responses.**  A node has the facts `p(row)` for the given rows as entries, in their order.  A leaf has only true facts, and there is a reason to stop (`stop`).
For another node there is one rule and one of its head atoms such that all entries are instances of the head atom for matches of the body; the first children are genuine for the
facts of these matches, in the same order, for each positive atom; the other children are the complete tables of the negated atoms. -/
inductive Explains (rules : List (NRule α)) (M : Interp α) (stop : Tag → List (List α) → Prop) : Resp α → Tag → List (List α) → Prop
  | leaf {p : Tag} {rows : List (List α)} : (∀ row ∈ rows, M p row) → stop p rows → Explains rules M stop (.leaf p rows) p rows
  | node {i k : Nat} {r : NRule α} {hd : HeadAtom α} {σs : List (Variable → α)} {pos neg : List (Resp α)} :
      rules[i]? = some r → r.head[k]? = some hd → (∀ σ ∈ σs, BodyHolds r M M σ) → pos.length = r.positive.length →
      (∀ (j : Nat) (a : BodyAtom) (c : Resp α), r.positive[j]? = some a → pos[j]? = some c → Explains rules M stop c a.pred (σs.map fun σ => a.terms.map σ)) →
      List.Forall₂ (fun (a : BodyAtom) c => ∃ rows, c = .leaf a.pred rows ∧ ∀ row, row ∈ rows ↔ M a.pred row) r.negative neg →
      Explains rules M stop (.node hd.pred (σs.map hd.inst) i k (pos ++ neg)) hd.pred (σs.map hd.inst)

/-- The reasons to stop: an entry is an input fact, or two entries were derived by different rules. -/
def Stop (st : Eng α) (edb : Interp α) (p : Tag) (rows : List (List α)) : Prop :=
  (∃ row ∈ rows, edb p row) ∨
  ∃ row ∈ rows, ∃ row' ∈ rows, ∃ s s', st.At p s row ∧ st.At p s' row' ∧ st.history[s]? ≠ st.history[s']?

/-- No rule has two head atoms with the same predicate. -/
def Distinct (rules : List (NRule α)) : Prop := ∀ r ∈ rules, (r.head.map (·.pred)).Nodup

/-- The choices are possible ones. -/
structure Choice.OK (c : Choice α) : Prop where
  perm : ∀ g, (c.perm g).Perm g
  all : ∀ rows row, row ∈ c.all rows ↔ row ∈ rows

/-- All entries of a genuine response are true. -/
theorem Explains.true {rules : List (NRule α)} {M I : Interp α} {stop : Tag → List (List α) → Prop} (hag : ∀ r ∈ rules, r.containsAggregates = false)
    {edb : Interp α} (hI : ClosedUnder rules edb M I) (hM : ∀ p row, M p row → I p row) {x : Resp α} {p : Tag} {rows : List (List α)} (h : Explains rules M stop x p rows) :
    ∀ row ∈ rows, I p row := by
  cases h with
  | leaf h _ => exact fun row hr => hM _ _ (h row hr)
  | @node i k r hd σs pos neg hr hk hb _ _ _ =>
    intro row hrow
    obtain ⟨σ, hσ, rfl⟩ := List.mem_map.1 hrow
    have hrm := List.mem_of_getElem? hr
    refine hI.2 r hrm _ _ ?_
    unfold Derives
    rw [hag r hrm]
    refine .plain (i := k) ?_ hk ?_
    · exact ⟨fun a ha => hM _ _ ((hb σ hσ).pos a ha), (hb σ hσ).ops, (hb σ hσ).neg⟩
    · intro a k' hagg
      have := hag r hrm
      unfold NRule.containsAggregates at this
      rw [hagg] at this; simp at this

/-! ## Lists -/

theorem mapM_map {β γ : Type} {f : β → Option γ} {g : β → γ} : ∀ {l : List β}, (∀ x ∈ l, f x = some (g x)) → l.mapM f = some (l.map g)
  | [], _ => rfl
  | x :: l, h => by rw [List.mapM_cons, h x List.mem_cons_self, mapM_map fun y hy => h y (List.mem_cons_of_mem _ hy)]; rfl

theorem mapM_forall₂ {β γ : Type} {f : β → Option γ} {P : β → γ → Prop} : ∀ {l : List β}, (∀ x ∈ l, ∃ y, f x = some y ∧ P x y) → ∃ ys, l.mapM f = some ys ∧ List.Forall₂ P l ys
  | [], _ => ⟨[], rfl, .nil⟩
  | x :: l, h => by
    obtain ⟨y, h1, h2⟩ := h x List.mem_cons_self
    obtain ⟨ys, h3, h4⟩ := mapM_forall₂ (f := f) (P := P) fun z hz => h z (List.mem_cons_of_mem _ hz)
    exact ⟨y :: ys, by rw [List.mapM_cons, h1, h3]; rfl, .cons h2 h4⟩

theorem mapM_some {β γ : Type} {f : β → Option γ} : ∀ {l : List β} {ys : List γ}, l.mapM f = some ys → List.Forall₂ (fun x y => f x = some y) l ys
  | [], ys, h => by simp at h; subst h; exact .nil
  | x :: l, ys, h => by
    rw [List.mapM_cons] at h
    obtain ⟨y, h1, h2⟩ := Option.bind_eq_some_iff.1 h
    obtain ⟨zs, h3, h4⟩ := Option.bind_eq_some_iff.1 h2
    cases h4
    exact .cons h1 (mapM_some h3)

theorem mapM_none {β γ : Type} {f : β → Option γ} : ∀ {l : List β}, l.mapM f = none → ∃ x ∈ l, f x = none
  | [], h => by simp at h
  | x :: l, h => by
    rw [List.mapM_cons] at h
    cases h1 : f x with
    | none => exact ⟨x, List.mem_cons_self, h1⟩
    | some y =>
      cases h2 : l.mapM f with
      | none =>
        obtain ⟨z, hz, h3⟩ := mapM_none h2
        exact ⟨z, List.mem_cons_of_mem _ hz, h3⟩
      | some ys => rw [h1, h2] at h; cases h

theorem forall₂_comp {β γ δ : Type} {R : β → γ → Prop} {S : γ → δ → Prop} {T : β → δ → Prop} {xs : List β} {ys : List γ} {zs : List δ} (h : List.Forall₂ R xs ys)
    (h' : List.Forall₂ S ys zs) (hT : ∀ x y z, R x y → S y z → T x z) : List.Forall₂ T xs zs := by
  induction h generalizing zs with
  | nil => cases h'; exact .nil
  | cons hx _ ih =>
    cases h' with
    | cons h1 h2 => exact .cons (hT _ _ _ hx h1) (ih h2)

theorem forall₂_map_eq {β γ δ : Type} {R : β → γ → Prop} {f : β → δ} {g : γ → δ} {xs : List β} {ys : List γ} (h : List.Forall₂ R xs ys) (hR : ∀ x y, R x y → g y = f x) :
    ys.map g = xs.map f := by
  induction h with
  | nil => rfl
  | cons hx _ ih => rw [List.map_cons, List.map_cons, ih, hR _ _ hx]

theorem mem_product {β : Type} : ∀ {ls : List (List β)} {gr : List β}, gr ∈ product ls ↔ List.Forall₂ (fun x l => x ∈ l) gr ls
  | [], gr => by
    rw [product, List.mem_singleton]
    exact ⟨fun h => h ▸ .nil, fun h => by cases h; rfl⟩
  | l :: ls, gr => by
    rw [product, List.mem_flatMap]
    constructor
    · rintro ⟨x, hx, h⟩
      obtain ⟨g, hg, rfl⟩ := List.mem_map.1 h
      exact .cons hx (mem_product.1 hg)
    · intro h
      cases h with
      | @cons x _ g _ hx hg => exact ⟨x, hx, List.mem_map.2 ⟨g, mem_product.2 hg, rfl⟩⟩

theorem product_ne {β : Type} : ∀ {ls : List (List β)}, (∀ l ∈ ls, l ≠ []) → product ls ≠ []
  | [], _ => by simp [product]
  | l :: ls, h => by
    obtain ⟨x, hx⟩ := List.exists_mem_of_ne_nil l (h l List.mem_cons_self)
    obtain ⟨g, hg⟩ := List.exists_mem_of_ne_nil _ (product_ne fun l' hl => h l' (List.mem_cons_of_mem _ hl))
    exact List.ne_nil_of_mem (List.mem_flatMap.2 ⟨x, hx, List.mem_map.2 ⟨g, hg, rfl⟩⟩)

section
variable {cond : Nat → List (Nat × Nat) → List (List Nat)} {rules : List (NRule α)} {cfgs : List RuleCfg}
  {arity : Tag → Nat} {edb : List (Tag × List (List α))} {outs : List Tag} {st : Eng α} {c : Choice α}

/-! ## Before negated atoms are added -/

/-- As `Explains`, without the children for negated atoms -/
inductive Pre (rules : List (NRule α)) (M : Interp α) (stop : Tag → List (List α) → Prop) : Resp α → Tag → List (List α) → Prop
  | leaf {p : Tag} {rows : List (List α)} : (∀ row ∈ rows, M p row) → stop p rows → Pre rules M stop (.leaf p rows) p rows
  | node {i k : Nat} {r : NRule α} {hd : HeadAtom α} {σs : List (Variable → α)} {pos : List (Resp α)} :
      rules[i]? = some r → r.head[k]? = some hd → (∀ σ ∈ σs, BodyHolds r M M σ) → pos.length = r.positive.length →
      (∀ (j : Nat) (a : BodyAtom) (c : Resp α), r.positive[j]? = some a → pos[j]? = some c → Pre rules M stop c a.pred (σs.map fun σ => a.terms.map σ)) →
      Pre rules M stop (.node hd.pred (σs.map hd.inst) i k pos) hd.pred (σs.map hd.inst)

/-- What is shown about the recursive calls -/
def RecOK (rules : List (NRule α)) (edb : Interp α) (st : Eng α) (n : Nat) (rec : List (GAtom α) → Option (Option (Resp α))) : Prop :=
  ∀ (p : Tag) (rows : List (List α)), rows ≠ [] → (∀ row ∈ rows, ∃ s, s < n ∧ st.At p s row) →
    ∃ x, rec (rows.map fun row => (p, row)) = some x ∧ (∀ y, x = some y → Pre rules st.answers (Stop st edb) y p rows) ∧
      (Distinct rules ∨ rows.length = 1 → x ≠ none)

theorem nextFacts_spec {out : List Variable} {gr : List (List α)} {σs : List (Variable → α)} {as : List BodyAtom}
    (h : List.Forall₂ (fun row (σ : Variable → α) => ∀ v ∈ atomVars as, lookup (out.zip row) v = some (σ v)) gr σs) :
    nextFacts out as gr = some (as.map fun a => (σs.map fun σ => a.terms.map σ).map fun row => (a.pred, row)) := by
  refine mapM_map fun a ha => ?_
  induction h with
  | nil => rfl
  | @cons row σ gr σs h1 _ ih =>
    rw [List.mapM_cons, ih]
    have : a.terms.mapM (lookup (out.zip row)) = some (a.terms.map σ) := mapM_map fun v hv => h1 v (List.mem_flatMap.2 ⟨a, ha, hv⟩)
    rw [this]
    rfl

theorem treeTry_spec {edb : Interp α} {n : Nat} {rec : List (GAtom α) → Option (Option (Resp α))} (hrec : RecOK rules edb st n rec) {out : List Variable} {as : List BodyAtom} {L : Nat}
    (hL : 0 < L) {E : List (Variable → α) → Prop} (grs : List (List (List α)))
    (hgr : ∀ gr ∈ grs, ∃ σs, List.Forall₂ (fun row (σ : Variable → α) => ∀ v ∈ atomVars as, lookup (out.zip row) v = some (σ v)) gr σs ∧ σs.length = L ∧ E σs ∧
      ∀ σ ∈ σs, ∀ a ∈ as, Before st.At n a.pred (a.terms.map σ)) :
    ∃ x, treeTry rec out as grs = some x ∧
      (∀ cs, x = some cs → ∃ σs, E σs ∧ List.Forall₂ (fun (a : BodyAtom) c => Pre rules st.answers (Stop st edb) c a.pred (σs.map fun σ => a.terms.map σ)) as cs) ∧
      (grs ≠ [] → Distinct rules ∨ L = 1 → x ≠ none) := by
  induction grs with
  | nil => exact ⟨none, rfl, fun _ h => (by cases h), fun h => absurd rfl h⟩
  | cons gr grs ih =>
    obtain ⟨x', e1, e2, -⟩ := ih fun g hg => hgr g (List.mem_cons_of_mem _ hg)
    obtain ⟨σs, s1, s2, s3, s4⟩ := hgr gr List.mem_cons_self
    rw [treeTry, nextFacts_spec s1]
    simp only [Option.bind_eq_bind, Option.bind_some]
    have hrow : ∀ a ∈ as, ∃ x, rec ((σs.map fun σ => a.terms.map σ).map fun row => (a.pred, row)) = some x ∧
        (∀ y, x = some y → Pre rules st.answers (Stop st edb) y a.pred (σs.map fun σ => a.terms.map σ)) ∧ (Distinct rules ∨ L = 1 → x ≠ none) := by
      intro a ha
      obtain ⟨x, h1, h2, h3⟩ := hrec a.pred (σs.map fun σ => a.terms.map σ) (by
          intro h
          have := congrArg List.length h
          simp [s2] at this
          omega) (fun row hr => by
          obtain ⟨σ, hσ, rfl⟩ := List.mem_map.1 hr
          exact s4 σ hσ a ha)
      exact ⟨x, h1, h2, fun h => h3 (h.imp_right fun h => by simp [s2, h])⟩
    obtain ⟨xs, h1, h2⟩ := mapM_forall₂ (f := fun a : BodyAtom => rec ((σs.map fun σ => a.terms.map σ).map fun row => (a.pred, row))) hrow
    have h1' : (as.map fun a => (σs.map fun σ => a.terms.map σ).map fun row => (a.pred, row)).mapM rec = some xs := by
      rw [← h1, List.mapM_map]
      rfl
    rw [h1']
    simp only [Option.bind_some]
    cases h3 : xs.mapM id with
    | some cs =>
      refine ⟨some cs, rfl, fun cs' hcs => ?_, fun _ _ h => by cases h⟩
      cases hcs
      refine ⟨σs, s3, ?_⟩
      exact forall₂_comp h2 (mapM_some h3) fun a x y hx hy => hx.1 y hy
    | none =>
      refine ⟨x', e1, e2, fun _ hd => ?_⟩
      obtain ⟨x, hx, hn⟩ := mapM_none h3
      obtain ⟨j, hj, rfl⟩ := List.getElem_of_mem hx
      have hlen := h2.length_eq
      exact absurd hn (((List.forall₂_iff_get.1 h2).2 j (by omega) hj).2 hd)

theorem traceOutput_eq {src : Source α} {at_ : Tag → Nat → List α → Prop} {step step' : Nat} (h : SrcOK src at_ arity step) (hstep : 0 < step) (h' : SrcOK src at_ arity step')
    (hstep' : 0 < step') {r : NRule α} (hr : RuleOK r arity) (ht : TraceOK r) {g : List (Variable × α)} (hg : ∀ x ∈ g, SafeVar r.positive r.operations x.1) :
    traceOutput src step r g = traceOutput src step' r [] := by
  obtain ⟨-, -, h1, -⟩ := traceRel_spec h hstep hr ht hg
  obtain ⟨-, -, h2, -⟩ := traceRel_spec h' hstep' hr ht (g := []) (by simp)
  unfold traceOutput restrictOrder
  refine List.filter_congr fun v _ => ?_
  rw [decide_eq_decide, h1, h2]

/-- A fact with its step -/
abbrev Found (st : Eng α) (p : Tag) (x : List α × Nat) : Prop := x.2 ≠ 0 ∧ st.At p x.2 x.1

/-- The combinations of rows of the queries are combinations of matches from which the facts are derived. -/
theorem combos (hc : c.OK) (hok : st.OK arity) {r : NRule α} (hro : RuleOK r arity) (hho : HeadOK r arity) (hex : r.isExistential = false) (hto : TraceOK r) {hd : HeadAtom α} {k : Nat}
    (hk : r.head[k]? = some hd) {p : Tag} {step0 : Nat} (hs0 : 0 < step0) (hs0' : step0 < st.cur) {xs : List (List α × Nat)} {gs : List (List (Variable × α))}
    (h : List.Forall₂ (fun x g => partialGrounding hd (p, x.1) = some g) xs gs) (hx : ∀ x ∈ xs, Found st p x) :
    (∀ gr ∈ product ((gs.zip (xs.map (·.2))).map fun y => treeQuery c st.source y.2 r (c.perm y.1)), ∃ σs,
      List.Forall₂ (fun row (σ : Variable → α) => ∀ v ∈ atomVars r.positive, lookup ((traceOutput st.source step0 r []).zip row) v = some (σ v)) gr σs ∧
      List.Forall₂ (fun (σ : Variable → α) x => BodyHolds r (Before st.At x.2) (Before st.At x.2) σ ∧ hd.inst σ = x.1) σs xs) ∧
    ((∀ x ∈ xs, ∃ σ, BodyHolds r (Before st.At x.2) (Before st.At x.2) σ ∧ hd.inst σ = x.1) →
      product ((gs.zip (xs.map (·.2))).map fun y => treeQuery c st.source y.2 r (c.perm y.1)) ≠ []) ∧
    (xs ≠ [] → hd.pred = p) := by
  have hsrc : ∀ {step}, step < st.cur → SrcOK st.source st.At arity step := fun hs => ⟨fun p lo hi row hle => hok.srcOK.mem p lo hi row (hle.trans hs.le), hok.len⟩
  have hexv := (not_isExistential hex (List.mem_of_getElem? hk)).2
  have hvars : ∀ v, Primitive.var v ∈ hd.terms → v ∈ hd.vars := by
    intro v hv; exact List.mem_filterMap.2 ⟨_, hv, rfl⟩
  have hnoagg : r.aggregation = none := by
    have := hto.plain; unfold NRule.containsAggregates at this; simpa using this
  have hsafe : ∀ v, Primitive.var v ∈ hd.terms → SafeVar r.positive r.operations v := fun v hv =>
    hho.headSafe k hd hk (by rw [hnoagg]; simp) v (hvars v hv) (hexv v (hvars v hv))
  -- one fact
  have one : ∀ (x : List α × Nat) (g : List (Variable × α)), Found st p x → partialGrounding hd (p, x.1) = some g →
      hd.pred = p ∧
      (∀ row ∈ treeQuery c st.source x.2 r (c.perm g), ∃ σ : Variable → α, (∀ v ∈ atomVars r.positive, lookup ((traceOutput st.source step0 r []).zip row) v = some (σ v)) ∧
        BodyHolds r (Before st.At x.2) (Before st.At x.2) σ ∧ hd.inst σ = x.1) ∧
      ((∃ σ, BodyHolds r (Before st.At x.2) (Before st.At x.2) σ ∧ hd.inst σ = x.1) → treeQuery c st.source x.2 r (c.perm g) ≠ []) := by
    intro x g ⟨hne, hat⟩ hpg
    unfold partialGrounding at hpg
    split at hpg
    · cases hpg
    rename_i hp
    have hp : hd.pred = p := by simpa using hp
    have hcur : x.2 < st.cur := by obtain ⟨e, he, h1, -⟩ := hat; rw [← h1]; exact hok.steps _ e he
    have hpos : 0 < x.2 := Nat.pos_of_ne_zero hne
    have hl : hd.terms.length = x.1.length := by
      rw [hok.len _ _ _ hat, ← hp]
      exact hho.headArity hd (List.mem_of_getElem? hk)
    obtain ⟨-, u2, u3⟩ := unify_sound hd.terms x.1 hl (fun v hv => hexv v (hvars v hv)) hpg
    have hg : ∀ y ∈ c.perm g, SafeVar r.positive r.operations y.1 := by
      intro y hy
      rcases u2 y ((hc.perm g).mem_iff.1 hy) with h | h
      · simp at h
      · exact hsafe _ h
    refine ⟨hp, fun row hrow => ?_, fun ⟨σ, hb, he⟩ => ?_⟩
    · unfold treeQuery at hrow
      split at hrow
      · cases hrow
      obtain ⟨σ, b1, b2, b3, -⟩ := assignment_spec (hsrc hcur) hpos hro hto hg ((hc.all _ _).1 hrow)
      refine ⟨σ, ?_, b1, u3 σ fun y hy => b2 y ((hc.perm g).mem_iff.2 hy)⟩
      rw [← traceOutput_eq (hsrc hcur) hpos (hsrc hs0') hs0 hro hto hg]
      exact b3
    · obtain ⟨w, -, hs, hh⟩ := traceRel_spec (hsrc hcur) hpos hro hto hg
      obtain ⟨g', hg', hag⟩ := unify_complete σ hd.terms (g := []) (fun _ h => by simp at h)
      have he' : hd.terms.map (Primitive.inst σ) = x.1 := he
      dsimp only at hpg
      rw [he', hpg] at hg'
      simp only [Option.some.injEq] at hg'
      subst hg'
      unfold treeQuery
      have : (traceRel st.source x.2 r (c.perm g)).cols.isEmpty = false := by
        obtain ⟨v, hv⟩ := hto.var
        rw [List.isEmpty_eq_false_iff]
        exact List.ne_nil_of_mem ((hs v).2 hv)
      rw [this]
      simp only [Bool.false_eq_true, if_false]
      exact List.ne_nil_of_mem ((hc.all _ _).2 ((hh σ).2 ⟨hb, fun y hy => hag y ((hc.perm g).mem_iff.1 hy)⟩))
  induction h with
  | nil =>
    refine ⟨fun gr hgr => ?_, fun _ => by simp [product], fun h => absurd rfl h⟩
    have := mem_product.1 hgr
    cases this
    exact ⟨[], .nil, .nil⟩
  | @cons x g xs gs h1 _ ih =>
    obtain ⟨o1, o2, o3⟩ := one x g (hx x List.mem_cons_self) h1
    obtain ⟨i1, i2, -⟩ := ih fun y hy => hx y (List.mem_cons_of_mem _ hy)
    rw [List.map_cons, List.zip_cons_cons, List.map_cons]
    refine ⟨fun gr hgr => ?_, fun hw => ?_, fun _ => o1⟩
    · cases mem_product.1 hgr with
      | @cons row _ gr' _ hrow hgr' =>
        obtain ⟨σ, a1, a2, a3⟩ := o2 row hrow
        obtain ⟨σs, b1, b2⟩ := i1 gr' (mem_product.2 hgr')
        exact ⟨σ :: σs, .cons a1 b1, .cons ⟨a2, a3⟩ b2⟩
    · have h2 := i2 fun y hy => hw y (List.mem_cons_of_mem _ hy)
      obtain ⟨row, hrow⟩ := List.exists_mem_of_ne_nil _ (o3 (hw x List.mem_cons_self))
      obtain ⟨gr, hgr⟩ := List.exists_mem_of_ne_nil _ h2
      exact List.ne_nil_of_mem (mem_product.2 (.cons hrow (mem_product.1 hgr)))

theorem treeHeads_spec (hcond : CondOK cond) (hp : ProgOK rules cfgs arity) (hto : ∀ r ∈ rules, TraceOK r) (he : EdbOK edb arity) (h : Reached cond rules cfgs outs edb st) (hc : c.OK)
    {n : Nat} {rec : List (GAtom α) → Option (Option (Resp α))} (hrec : RecOK rules (edbFacts edb) st n rec) {p : Tag} {xs : List (List α × Nat)} (hne : xs ≠ [])
    {i : Nat} {r : NRule α} (hr : rules[i]? = some r) (hx : ∀ x ∈ xs, Found st p x ∧ st.history[x.2]? = some i ∧ x.2 ≤ n) {step0 : Nat} (hs0 : 0 < step0) (hs0' : step0 < st.cur)
    (hs : List (HeadAtom α × Nat)) (hsub : ∀ y ∈ hs, r.head[y.2]? = some y.1) :
    ∃ z, treeHeads c st.source rec p (xs.map fun x => (p, x.1)) (xs.map (·.2)) i r (traceOutput st.source step0 r []) hs = some z ∧
      (∀ y, z = some y → Pre rules st.answers (Stop st (edbFacts edb)) y p (xs.map (·.1))) ∧
      ((∃ y ∈ hs, y.1.pred = p ∧ ∀ x ∈ xs, ∃ σ, BodyHolds r (Before st.At x.2) (Before st.At x.2) σ ∧ y.1.inst σ = x.1) →
        Distinct rules ∨ xs.length = 1 → z ≠ none) := by
  have hna : ∀ r ∈ rules, r.containsAggregates = false := fun r hr => (hto r hr).plain
  have hok := (h.hist hp hna he).ok
  have hrm := List.mem_of_getElem? hr
  obtain ⟨hro, hho, hex⟩ := hp.rule r hrm
  induction hs with
  | nil => exact ⟨none, rfl, fun _ h => (by cases h), fun ⟨y, hy, _⟩ => by simp at hy⟩
  | cons y hs ih =>
    obtain ⟨hd, k⟩ := y
    obtain ⟨z', e1, e2, e3⟩ := ih fun y hy => hsub y (List.mem_cons_of_mem _ hy)
    have hk : r.head[k]? = some hd := hsub (hd, k) List.mem_cons_self
    rw [treeHeads]
    cases hm : (xs.map fun x => (p, x.1)).mapM (partialGrounding hd) with
    | none =>
      simp only
      refine ⟨z', e1, e2, fun ⟨y, hy, hy1, hy2⟩ hd' => ?_⟩
      rcases List.mem_cons.1 hy with rfl | hy
      · exfalso
        obtain ⟨f, hf, hn⟩ := mapM_none hm
        obtain ⟨x, hxm, rfl⟩ := List.mem_map.1 hf
        obtain ⟨σ, -, hσ⟩ := hy2 x hxm
        obtain ⟨g', hg', -⟩ := unify_complete σ hd.terms (g := []) (fun _ h => by simp at h)
        have he' : hd.terms.map (Primitive.inst σ) = x.1 := hσ
        unfold partialGrounding at hn
        dsimp only at hn hy1
        rw [if_neg (by simpa using hy1), ← he', hg'] at hn
        cases hn
      · exact e3 ⟨y, hy, hy1, hy2⟩ hd'
    | some gs =>
      simp only
      have hgs : List.Forall₂ (fun x g => partialGrounding hd (p, x.1) = some g) xs gs := by
        have := mapM_some hm
        rw [List.forall₂_map_left_iff] at this
        exact this
      obtain ⟨c1, c2, c3⟩ := combos hc hok hro hho hex (hto r hrm) hk hs0 hs0' hgs fun x hxm => (hx x hxm).1
      have hpp := c3 hne
      obtain ⟨w, w1, w2, w3⟩ := treeTry_spec hrec (out := traceOutput st.source step0 r []) (as := r.positive) (L := xs.length) (List.length_pos_of_ne_nil hne)
        (E := fun σs => List.Forall₂ (fun (σ : Variable → α) (x : List α × Nat) => BodyHolds r (Before st.At x.2) (Before st.At x.2) σ ∧ hd.inst σ = x.1) σs xs)
        (product ((gs.zip (xs.map (·.2))).map fun y => treeQuery c st.source y.2 r (c.perm y.1))) (fun gr hgr => by
          obtain ⟨σs, a1, a2⟩ := c1 gr hgr
          refine ⟨σs, a1, a2.length_eq, a2, fun σ hσ a ha => ?_⟩
          obtain ⟨j, hj, rfl⟩ := List.getElem_of_mem hσ
          have hlen := a2.length_eq
          obtain ⟨b1, -⟩ := (List.forall₂_iff_get.1 a2).2 j hj (by omega)
          obtain ⟨s, s1, s2⟩ := b1.pos a ha
          have := (hx _ (List.get_mem xs ⟨j, by omega⟩)).2.2
          exact ⟨s, by omega, s2⟩)
      rw [w1]
      simp only [Option.bind_eq_bind, Option.bind_some]
      cases w with
      | none =>
        refine ⟨z', e1, e2, fun ⟨y, hy, hy1, hy2⟩ hd' => ?_⟩
        rcases List.mem_cons.1 hy with rfl | hy
        · exact absurd rfl (w3 (c2 hy2) hd')
        · exact e3 ⟨y, hy, hy1, hy2⟩ hd'
      | some cs =>
        refine ⟨_, rfl, fun y hy => ?_, fun _ _ h => by cases h⟩
        cases hy
        obtain ⟨σs, s1, s2⟩ := w2 cs rfl
        have hrows : xs.map (·.1) = σs.map hd.inst := forall₂_map_eq s1 fun _ _ h => h.2.symm
        have hlist : (xs.map fun x => (p, x.1)).map (·.2) = xs.map (·.1) := by rw [List.map_map]; rfl
        rw [hlist, hrows, ← hpp]
        refine .node hr hk (fun σ hσ => ?_) s2.length_eq.symm fun j a cc hj hc' => ?_
        · obtain ⟨j, hj, rfl⟩ := List.getElem_of_mem hσ
          have hlen := s1.length_eq
          obtain ⟨b1, -⟩ := (List.forall₂_iff_get.1 s1).2 j hj (by omega)
          obtain ⟨⟨f1, -⟩, f2, -⟩ := hx _ (List.get_mem xs ⟨j, by omega⟩)
          exact body_all hcond hp hto he h f1 f2 hr b1
        · obtain ⟨hj1, hj2⟩ := List.getElem?_eq_some_iff.1 hj
          obtain ⟨hc1, hc2⟩ := List.getElem?_eq_some_iff.1 hc'
          have := (List.forall₂_iff_get.1 s2).2 j hj1 hc1
          simp only [List.get_eq_getElem, hj2, hc2] at this
          exact this

theorem treeRec_spec (hcond : CondOK cond) (hp : ProgOK rules cfgs arity) (hto : ∀ r ∈ rules, TraceOK r) (he : EdbOK edb arity) (h : Reached cond rules cfgs outs edb st) (hc : c.OK)
    (n : Nat) : RecOK rules (edbFacts edb) st n (treeRec c rules st n) := by
  have hna : ∀ r ∈ rules, r.containsAggregates = false := fun r hr => (hto r hr).plain
  have hist := h.hist hp hna he
  have hok := hist.ok
  induction n with
  | zero =>
    intro p rows hne hall
    obtain ⟨row, hrow⟩ := List.exists_mem_of_ne_nil rows hne
    obtain ⟨s, hs, -⟩ := hall row hrow
    omega
  | succ n ih =>
    intro p rows hne hall
    have hfacts : ∀ row ∈ rows, st.answers p row := by
      intro row hrow
      obtain ⟨s, -, hs⟩ := hall row hrow
      rw [answers_eq hok]
      exact ⟨s, hs⟩
    -- the steps
    have hsteps : ∀ row ∈ rows, ∃ s, st.findTableRow p row = some s ∧ (st.At p s row ∧ s ≤ n) := by
      intro row hrow
      obtain ⟨s, hs1, hs2⟩ := hall row hrow
      cases hf : st.findTableRow p row with
      | none => exact absurd ⟨s, hs2⟩ (Eng.findTableRow_none hf)
      | some s' =>
        have hs' := Eng.findTableRow_some hf
        have := hok.unique _ _ _ _ hs' hs2
        exact ⟨s', rfl, hs', by omega⟩
    obtain ⟨steps, g1, g2⟩ := mapM_forall₂ (f := fun row => st.findTableRow p row) hsteps
    cases rows with
    | nil => exact absurd rfl hne
    | cons row0 rows0 =>
    generalize hrows : row0 :: rows0 = rows at *
    have hr0 : rows[0]? = some row0 := by rw [← hrows]; rfl
    have hmap : rows.map (fun row => (p, row)) = (p, row0) :: rows0.map (fun row => (p, row)) := by rw [← hrows]; rfl
    rw [hmap, treeRec, ← hmap]
    have g1' : (rows.map fun row => (p, row)).mapM (fun g => st.findTableRow p g.2) = some steps := by
      rw [List.mapM_map]; exact g1
    rw [g1']
    simp only
    have hents : (rows.map fun row => (p, row)).map (·.2) = rows := by rw [List.map_map]; exact List.map_id' rows
    rw [hents]
    by_cases hin : (∃ g ∈ rows.map fun row => (p, row), g.1 ∉ VarOrder.derived rules) ∨ 0 ∈ steps
    · rw [if_pos hin]
      refine ⟨_, rfl, fun y hy => ?_, fun _ h => by cases h⟩
      cases hy
      refine .leaf hfacts (.inl ?_)
      rcases hin with ⟨g, hg, hnd⟩ | h0
      · obtain ⟨row, hrow, rfl⟩ := List.mem_map.1 hg
        obtain ⟨s, -, hs⟩ := hall row hrow
        refine ⟨row, hrow, (hist.zero _ _).1 ?_⟩
        by_cases h0 : s = 0
        · rw [← h0]; exact hs
        · exfalso
          obtain ⟨i, r, -, hr, hd⟩ := hist.src _ _ _ hs h0
          have hrm := List.mem_of_getElem? hr
          exact hnd (List.mem_flatMap.2 ⟨r, hrm, (hd.arity (hp.rule r hrm).2.1).2⟩)
      · obtain ⟨j, hj, hj0⟩ := List.getElem_of_mem h0
        have hlen := g2.length_eq
        have := (List.forall₂_iff_get.1 g2).2 j (by omega) hj
        simp only [List.get_eq_getElem, hj0] at this
        exact ⟨_, List.getElem_mem _, (hist.zero _ _).1 this.1⟩
    rw [if_neg hin]
    push Not at hin
    -- the rules
    have hsrc : ∀ row s, st.At p s row → s ∈ steps → ∃ i r, st.history[s]? = some i ∧ rules[i]? = some r ∧
        DerivesWith r (BodyHolds r (Before st.At s) (Before st.At s)) p row := fun row s hs hm => hist.src _ _ _ hs fun h0 => hin.2 (h0 ▸ hm)
    have hst : ∀ s ∈ steps, ∃ row ∈ rows, st.At p s row ∧ s ≤ n := by
      intro s hs
      obtain ⟨j, hj, rfl⟩ := List.getElem_of_mem hs
      have hlen := g2.length_eq
      exact ⟨_, List.getElem_mem (by omega), (List.forall₂_iff_get.1 g2).2 j (by omega) hj⟩
    obtain ⟨is, i1, i2⟩ := mapM_forall₂ (l := steps) (f := (st.history[·]?)) (P := fun s i => st.history[s]? = some i) fun s hs => by
      obtain ⟨row, -, h1, -⟩ := hst s hs
      obtain ⟨i, r, h2, -⟩ := hsrc row s h1 hs
      exact ⟨i, h2, h2⟩
    rw [i1]
    simp only [Option.bind_eq_bind, Option.bind_some]
    have hl1 := g2.length_eq
    have hl2 := i2.length_eq
    have hl0 : 0 < rows.length := List.length_pos_of_ne_nil hne
    rw [List.getElem?_eq_getElem (show 0 < is.length by omega)]
    simp only [Option.bind_some]
    have hi0 : st.history[steps[0]]? = some is[0] := (List.forall₂_iff_get.1 i2).2 0 (by omega) (by omega)
    have hs0 := List.getElem_mem (l := steps) (n := 0) (by omega)
    split
    · rename_i hany
      refine ⟨_, rfl, fun y hy => ?_, fun _ h => by cases h⟩
      cases hy
      refine .leaf hfacts (.inr ?_)
      obtain ⟨i, hi, hne'⟩ := List.any_eq_true.1 hany
      obtain ⟨j, hj, rfl⟩ := List.getElem_of_mem hi
      have a1 := (List.forall₂_iff_get.1 g2).2 j (by omega) (by omega)
      have a2 := (List.forall₂_iff_get.1 i2).2 j (by omega) (by omega)
      have b1 := (List.forall₂_iff_get.1 g2).2 0 (by omega) (by omega)
      simp only [List.get_eq_getElem] at a1 a2 b1
      refine ⟨_, List.getElem_mem _, _, List.getElem_mem _, _, _, a1.1, b1.1, ?_⟩
      rw [a2, hi0]
      simpa using hne'
    · rename_i hany
      have hsame : ∀ s ∈ steps, st.history[s]? = some is[0] := by
        intro s hs
        obtain ⟨j, hj, rfl⟩ := List.getElem_of_mem hs
        have a2 := (List.forall₂_iff_get.1 i2).2 j (by omega) (by omega)
        simp only [List.get_eq_getElem] at a2
        rw [a2]
        have : ¬ is[j] ≠ is[0] := fun hne' => hany (List.any_eq_true.2 ⟨is[j], List.getElem_mem _, by simpa using hne'⟩)
        rw [not_not.1 this]
      obtain ⟨row1, -, hat1, -⟩ := hst _ hs0
      obtain ⟨i, r, hi, hr, -⟩ := hsrc row1 _ hat1 hs0
      rw [hi0] at hi
      cases hi
      rw [hr, List.getElem?_eq_getElem (show 0 < steps.length by omega)]
      simp only [Option.bind_some]
      have hpos0 : 0 < steps[0] := Nat.pos_of_ne_zero fun h0 => hin.2 (h0 ▸ hs0)
      have hcur0 : steps[0] < st.cur := by obtain ⟨e, he', h1, -⟩ := hat1; rw [← h1]; exact hok.steps _ e he'
      have hrm := List.mem_of_getElem? hr
      have hxs : ∀ x ∈ rows.zip steps, Found st p x ∧ st.history[x.2]? = some is[0] ∧ x.2 ≤ n := by
        intro x hx
        obtain ⟨j, hj, hj2⟩ := List.getElem_of_mem hx
        rw [List.length_zip] at hj
        rw [List.getElem_zip] at hj2
        have a1 := (List.forall₂_iff_get.1 g2).2 j (by omega) (by omega)
        simp only [List.get_eq_getElem] at a1
        subst hj2
        have hm := List.getElem_mem (l := steps) (n := j) (by omega)
        exact ⟨⟨fun h0 => hin.2 (h0 ▸ hm), a1.1⟩, hsame _ hm, a1.2⟩
      have hz1 : (rows.zip steps).map (·.1) = rows := List.map_fst_zip (by omega)
      have hz2 : (rows.zip steps).map (·.2) = steps := List.map_snd_zip (by omega)
      have hz3 : (rows.zip steps).map (fun x => (p, x.1)) = rows.map fun row => (p, row) := by
        conv_rhs => rw [← hz1, List.map_map]
        rfl
      obtain ⟨z, e1, e2, e3⟩ := treeHeads_spec hcond hp hto he h hc ih (xs := rows.zip steps) (by
          intro h0
          have := congrArg List.length h0
          rw [List.length_zip, List.length_nil] at this
          omega) hr hxs hpos0 hcur0 r.head.zipIdx fun y hy => List.mem_zipIdx_iff_getElem?.1 hy
      rw [hz1] at e2
      rw [hz2, hz3] at e1
      refine ⟨z, e1, e2, fun hd => e3 ?_ (hd.imp_right fun h1 => by rw [List.length_zip]; omega)⟩
      -- the head atom
      have hnoagg : r.aggregation = none := by
        have := (hto r hrm).plain; unfold NRule.containsAggregates at this; simpa using this
      have hder : ∀ x ∈ rows.zip steps, ∃ (hd : HeadAtom α) (k : Nat), r.head[k]? = some hd ∧ hd.pred = p ∧ ∃ σ : Variable → α, BodyHolds r (Before st.At x.2) (Before st.At x.2) σ ∧ hd.inst σ = x.1 := by
        intro x hx
        obtain ⟨⟨f1, f2⟩, f3, -⟩ := hxs x hx
        obtain ⟨i', r', q1, q2, q3⟩ := hist.src _ _ _ f2 f1
        rw [f3] at q1
        cases q1
        rw [hr] at q2
        cases q2
        generalize x.1 = row at q3 ⊢
        cases q3 with
        | @plain σ hd k hb hk _ => exact ⟨hd, k, hk, rfl, σ, hb, rfl⟩
        | agg _ ha _ => rw [hnoagg] at ha; cases ha
      have hx0 : (row0, steps[0]) ∈ rows.zip steps := by
        have : (rows.zip steps)[0]? = some (row0, steps[0]) := by
          rw [List.getElem?_zip_eq_some]
          exact ⟨hr0, List.getElem?_eq_getElem _⟩
        exact List.mem_of_getElem? this
      obtain ⟨hd0, k0, hk0, hp0, hσ0⟩ := hder _ hx0
      refine ⟨(hd0, k0), List.mem_zipIdx_iff_getElem?.2 hk0, hp0, fun x hx => ?_⟩
      rcases hd with hd | hd
      · obtain ⟨hd1, k1, hk1, hp1, hσ1⟩ := hder x hx
        have hnd := hd r hrm
        have : k0 = k1 := by
          have a0 : (r.head.map (·.pred))[k0]? = some p := by rw [List.getElem?_map, hk0, Option.map_some, hp0]
          have a1 : (r.head.map (·.pred))[k1]? = some p := by rw [List.getElem?_map, hk1, Option.map_some, hp1]
          obtain ⟨b0, b0'⟩ := List.getElem?_eq_some_iff.1 a0
          obtain ⟨b1, b1'⟩ := List.getElem?_eq_some_iff.1 a1
          exact (List.Nodup.getElem_inj_iff hnd).1 (b0'.trans b1'.symm)
        subst this
        rw [hk0] at hk1
        cases hk1
        exact hσ1
      · obtain ⟨j, hj, hj2⟩ := List.getElem_of_mem hx
        obtain ⟨j', hj', hj2'⟩ := List.getElem_of_mem hx0
        rw [List.length_zip] at hj hj'
        have : j = j' := by omega
        subst this
        rw [hj2] at hj2'
        rw [hj2']
        exact hσ0

/-! ## Negated atoms -/

theorem addNegations_spec {norm : Nat → Option Nat} {xs : List (Resp α)} {P : Nat → Resp α → Prop}
    (h : ∀ (j : Nat) x, xs[j]? = some x → ∃ y, addNegation rules norm st x = some y ∧ P j y) :
    ∃ ys, addNegations rules norm st xs = some ys ∧ ys.length = xs.length ∧ ∀ (j : Nat) y, ys[j]? = some y → P j y := by
  induction xs generalizing P with
  | nil => exact ⟨[], rfl, rfl, by simp⟩
  | cons x xs ih =>
    obtain ⟨y, h1, h2⟩ := h 0 x rfl
    obtain ⟨ys, h3, h4, h5⟩ := ih (P := fun j => P (j + 1)) fun j x hx => h (j + 1) x (by simpa using hx)
    refine ⟨y :: ys, ?_, by simp [h4], fun j z hz => ?_⟩
    · rw [addNegations, h1, h3]; rfl
    · match j with
      | 0 => simp at hz; subst hz; exact h2
      | j + 1 => exact h5 j z (by simpa using hz)

theorem addNegation_spec {norm : Nat → Option Nat} (hnorm : ∀ i < rules.length, norm i = some i) {stop : Tag → List (List α) → Prop} {x : Resp α} {p : Tag}
    {rows : List (List α)} (h : Pre rules st.answers stop x p rows) : ∃ y, addNegation rules norm st x = some y ∧ Explains rules st.answers stop y p rows := by
  induction h with
  | leaf h1 h2 => exact ⟨_, rfl, .leaf h1 h2⟩
  | @node i k r hd σs pos hr hk hb hl hc ih =>
    obtain ⟨ys, e1, e2, e3⟩ := addNegations_spec (st := st) (rules := rules) (norm := norm) (xs := pos)
      (P := fun j y => ∀ a, r.positive[j]? = some a → Explains rules st.answers stop y a.pred (σs.map fun σ => a.terms.map σ)) (fun j x hx => by
        have hj : j < r.positive.length := by rw [← hl]; exact (List.getElem?_eq_some_iff.1 hx).1
        obtain ⟨y, h1, h2⟩ := ih j r.positive[j] x (List.getElem?_eq_getElem hj) hx
        refine ⟨y, h1, fun a ha => ?_⟩
        rw [List.getElem?_eq_getElem hj] at ha
        cases ha
        exact h2)
    have hi : i < rules.length := (List.getElem?_eq_some_iff.1 hr).1
    refine ⟨_, by simp only [addNegation, e1, hnorm i hi, Option.bind_eq_bind, Option.bind_some, hr]; rfl, ?_⟩
    refine .node hr hk hb (by rw [e2, hl]) (fun j a c ha hc' => e3 j c hc' a ha) ?_
    rw [List.forall₂_map_right_iff, List.forall₂_same]
    exact fun a _ => ⟨_, rfl, fun row => Iff.rfl⟩

/-- **C65: tree queries.**  At any point of an execution, for any facts with the same predicate and any choice that the program is free to make, if no rule was removed before execution
(so that ids of rules are indices): the query ends without failing.  If there is a response then it is genuine for these facts.  There is a response if all facts are stored and if
there is only one fact, or no rule has two head atoms with the same predicate; there is none if some fact is not stored. -/
theorem tree_genuine_partial (hcond : CondOK cond) (hp : ProgOK rules cfgs arity) (hto : ∀ r ∈ rules, TraceOK r) (he : EdbOK edb arity) (h : Reached cond rules cfgs outs edb st) (hc : c.OK)
    {norm : Nat → Option Nat} (hnorm : ∀ i < rules.length, norm i = some i) {fuel : Nat} (hfuel : st.cur ≤ fuel) (p : Tag) (rows : List (List α)) :
    ∃ x, traceTree c rules norm st fuel (rows.map fun row => (p, row)) = some x ∧
      (∀ y, x = some y → Explains rules st.answers (Stop st (edbFacts edb)) y p rows) ∧
      (rows ≠ [] → (∀ row ∈ rows, st.answers p row) → Distinct rules ∨ rows.length = 1 → x ≠ none) ∧
      (∀ row ∈ rows, ¬ st.answers p row → x = none) := by
  have hna : ∀ r ∈ rules, r.containsAggregates = false := fun r hr => (hto r hr).plain
  have hist := h.hist hp hna he
  have hok := hist.ok
  have hans := answers_eq hok
  have hpos := hok.pos
  by_cases hall : rows ≠ [] ∧ ∀ row ∈ rows, st.answers p row
  · obtain ⟨x, e1, e2, e3⟩ := treeRec_spec hcond hp hto he h hc fuel p rows hall.1 fun row hrow => by
      have := hall.2 row hrow
      rw [hans] at this
      obtain ⟨s, hs⟩ := this
      refine ⟨s, ?_, hs⟩
      obtain ⟨e, hm, rfl, -⟩ := hs
      have := hok.steps _ e hm
      omega
    unfold traceTree
    rw [e1]
    simp only [Option.bind_eq_bind, Option.bind_some]
    cases x with
    | none =>
      refine ⟨none, rfl, fun _ h => (by cases h), fun _ _ hd => absurd rfl (e3 hd), fun _ _ _ => rfl⟩
    | some y =>
      obtain ⟨z, z1, z2⟩ := addNegation_spec hnorm (e2 y rfl)
      refine ⟨some z, by simp only [z1]; rfl, fun w hw => by cases hw; exact z2, fun _ _ _ h => (by cases h), fun row hr hno => absurd (hall.2 row hr) hno⟩
  · have hrec : treeRec c rules st fuel (rows.map fun row => (p, row)) = some none := by
      cases fuel with
      | zero => omega
      | succ n =>
        cases rows with
        | nil => rfl
        | cons row0 rows0 =>
          rw [List.map_cons, treeRec, ← List.map_cons (f := fun row => (p, row))]
          cases hm : (List.map (fun row => (p, row)) (row0 :: rows0)).mapM (fun g => st.findTableRow p g.2) with
          | none => rfl
          | some steps =>
            exfalso
            refine hall ⟨by simp, fun row hrow => ?_⟩
            rw [hans]
            have h2 := mapM_some hm
            obtain ⟨j, hj, hj2⟩ := List.getElem_of_mem (List.mem_map_of_mem (f := fun row => (p, row)) hrow)
            have hlen := h2.length_eq
            have := (List.forall₂_iff_get.1 h2).2 j hj (by omega)
            simp only [List.get_eq_getElem, hj2] at this
            exact ⟨_, Eng.findTableRow_some this⟩
    unfold traceTree
    rw [hrec]
    exact ⟨none, rfl, fun _ h => (by cases h), fun h1 h2 => absurd ⟨h1, h2⟩ hall, fun _ _ _ => rfl⟩

end
end Verif.Trace.TreeQ
