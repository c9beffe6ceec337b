import Verif.TraceQuery

/-!
# Tracing finds a derivation of each fact
-/

set_option linter.unusedSimpArgs false
set_option linter.unusedSectionVars false

namespace Verif
variable {α : Type} [DecidableEq α] [Dom α]

theorem Eng.findTableRow_some {st : Eng α} {p : Tag} {s : Nat} {row : List α} (h : st.findTableRow p row = some s) :
    st.At p s row := by
  unfold Eng.findTableRow at h
  rw [Option.map_eq_some_iff] at h
  obtain ⟨e, h1, rfl⟩ := h
  exact ⟨e, List.mem_of_find?_eq_some h1, rfl, by simpa using List.find?_some h1⟩

theorem Eng.findTableRow_none {st : Eng α} {p : Tag} {row : List α} (h : st.findTableRow p row = none) : ¬ st.Facts p row := by
  unfold Eng.findTableRow at h
  rw [Option.map_eq_none_iff, List.find?_eq_none] at h
  rintro ⟨s, e, he, -, hr⟩
  simpa [hr] using h e he

namespace Trace
open VarOrder (derived)

/-- Nodes keep their fact, and their success. -/
def Ext (t t' : Store α) : Prop :=
  ∀ (h : Nat) (x : Traced α), t[h]? = some x → ∃ x', t'[h]? = some x' ∧ x'.fact = x.fact ∧
    (x.status.isSuccess = true → x'.status.isSuccess = true)

theorem Ext.refl (t : Store α) : Ext t t := fun _ x hx => ⟨x, hx, rfl, id⟩

theorem Ext.trans {t t' t'' : Store α} (h : Ext t t') (h' : Ext t' t'') : Ext t t'' := by
  intro k x hx
  obtain ⟨y, h1, h2, h3⟩ := h k x hx
  obtain ⟨z, g1, g2, g3⟩ := h' k y h1
  exact ⟨z, g1, g2.trans h2, g3 ∘ h3⟩

/-- The values of the trace: each variable has one; the values of the variables of positive atoms, and of all variables if at
most one is computed, are those of the match. -/
structure AsgOK (r : NRule α) (asg : List (Variable × α)) (σ : Variable → α) : Prop where
  all : ∀ v, SafeVar r.positive r.operations v → ∃ a, (v, a) ∈ asg
  vals : ∀ x ∈ asg, x.1 ∈ atomVars r.positive ∨ OneComputed r → σ x.1 = x.2

/-- the node has been traced successfully and holds the fact -/
def Done (t : Store α) (f : GAtom α) (h : Nat) : Prop := ∃ x, t[h]? = some x ∧ x.fact = f ∧ x.status.isSuccess = true

theorem Done.ext {t t' : Store α} (he : Ext t t') {f : GAtom α} {h : Nat} (hd : Done t f h) : Done t' f h := by
  obtain ⟨x, h1, rfl, h3⟩ := hd
  obtain ⟨y, g1, g2, g3⟩ := he h x h1
  exact ⟨y, g1, g2, g3 h3⟩

/-- a step of a derivation -/
def GoodStep (rules : List (NRule α)) (st : Eng α) (t : Store α) (f : GAtom α) (i : Nat) (asg : List (Variable × α)) (k : Nat)
    (subs : List Nat) : Prop :=
  ∃ r hd σ step, st.At f.1 step f.2 ∧ step ≠ 0 ∧ st.history[step]? = some i ∧ rules[i]? = some r ∧
    r.head[k]? = some hd ∧ hd.pred = f.1 ∧ hd.inst σ = f.2 ∧ BodyHolds r (Before st.At step) (Before st.At step) σ ∧
    AsgOK r asg σ ∧ List.Forall₂ (fun (a : BodyAtom) h => Done t (a.pred, a.terms.map σ) h) r.positive subs

theorem GoodStep.ext {rules : List (NRule α)} {st : Eng α} {t t' : Store α} (he : Ext t t') {f : GAtom α} {i k : Nat}
    {asg : List (Variable × α)} {subs : List Nat} (h : GoodStep rules st t f i asg k subs) :
    GoodStep rules st t' f i asg k subs := by
  obtain ⟨r, hd, σ, step, h1, h2, h3, h4, h5, h6, h7, h8, h9, h10⟩ := h
  exact ⟨r, hd, σ, step, h1, h2, h3, h4, h5, h6, h7, h8, h9, h10.imp fun _ _ h => h.ext he⟩

/-- a correct status -/
def StatusOK (rules : List (NRule α)) (st : Eng α) (t : Store α) (f : GAtom α) : Status α → Prop
  | .unknown => True
  | .fail => ¬ st.Facts f.1 f.2
  | .success .input => st.At f.1 0 f.2
  | .success (.derived i asg k subs) => GoodStep rules st t f i asg k subs

theorem StatusOK.ext {rules : List (NRule α)} {st : Eng α} {t t' : Store α} (he : Ext t t')
    {f : GAtom α} {s : Status α} (h : StatusOK rules st t f s) : StatusOK rules st t' f s := by
  match s with
  | .unknown => trivial
  | .fail => exact h
  | .success .input => exact h
  | .success (.derived i asg k subs) => exact GoodStep.ext he h

/-- the invariant -/
structure TInv (rules : List (NRule α)) (st : Eng α) (t : Store α) : Prop where
  nodes : ∀ (h : Nat) (x : Traced α), t[h]? = some x → StatusOK rules st t x.fact x.status
  nodup : (t.map (·.fact)).Nodup

section
variable {rules : List (NRule α)} {edb : List (Tag × List (List α))} {st : Eng α} {t : Store α}

theorem StatusOK.facts {f : GAtom α} {s : Status α} (h : StatusOK rules st t f s) (hs : s.isSuccess = true) :
    st.Facts f.1 f.2 := by
  match s with
  | .success .input => exact ⟨0, h⟩
  | .success (.derived i asg k subs) =>
    obtain ⟨r, hd, σ, step, h1, -⟩ := h
    exact ⟨step, h1⟩

theorem register_spec (h : TInv rules st t) (f : GAtom α) :
    TInv rules st (register t f).1 ∧ Ext t (register t f).1 ∧
      ∃ x, (register t f).1[(register t f).2]? = some x ∧ x.fact = f := by
  unfold register
  split
  · rename_i i hi
    rw [List.findIdx?_eq_some_iff_getElem] at hi
    obtain ⟨h1, h2, -⟩ := hi
    exact ⟨h, Ext.refl t, t[i], List.getElem?_eq_getElem h1, by simpa using h2⟩
  · rename_i hnone
    have he : Ext t (t ++ [⟨f, .unknown⟩]) := by
      intro k x hx
      refine ⟨x, ?_, rfl, id⟩
      rw [List.getElem?_append_left (List.getElem?_eq_some_iff.1 hx).1]; exact hx
    refine ⟨⟨fun k x hx => ?_, ?_⟩, he, ⟨f, .unknown⟩, by simp, rfl⟩
    rotate_left
    · rw [List.map_append, List.nodup_append]
      refine ⟨h.nodup, by simp, ?_⟩
      intro a ha b hb hab
      simp only [List.map_cons, List.map_nil, List.mem_singleton] at hb
      subst hb
      obtain ⟨x, hx, hxa⟩ := List.mem_map.1 ha
      have := List.findIdx?_eq_none_iff.1 hnone x hx
      simp only [decide_eq_false_iff_not] at this
      exact this (hxa.trans hab)
    rw [List.getElem?_append] at hx
    split at hx
    · exact (h.nodes k x hx).ext he
    · have hx' := List.mem_of_getElem? hx
      simp only [List.mem_singleton] at hx'
      subst hx'; trivial

theorem update_spec (h : TInv rules st t) {k : Nat} {x : Traced α} (hk : t[k]? = some x) {s : Status α}
    (hx : x.status.isSuccess = true → s.isSuccess = true) (hs : StatusOK rules st t x.fact s) :
    TInv rules st (update t k s) ∧ Ext t (update t k s) ∧ (update t k s)[k]? = some ⟨x.fact, s⟩ := by
  have hget : (update t k s)[k]? = some ⟨x.fact, s⟩ := by
    unfold update; rw [List.getElem?_modify, hk]; simp
  have hother : ∀ j, j ≠ k → (update t k s)[j]? = t[j]? := by
    intro j hj
    unfold update
    rw [List.getElem?_modify]
    simp [Ne.symm hj]
  have he : Ext t (update t k s) := by
    intro j y hy
    by_cases hj : j = k
    · subst hj
      rw [hk] at hy
      simp only [Option.some.injEq] at hy
      subst hy
      exact ⟨_, hget, rfl, hx⟩
    · exact ⟨y, by rw [hother j hj]; exact hy, rfl, id⟩
  have hfacts : (update t k s).map (·.fact) = t.map (·.fact) := by
    apply List.ext_getElem?
    intro j
    rw [List.getElem?_map, List.getElem?_map]
    by_cases hj : j = k
    · subst hj; rw [hget, hk]; rfl
    · rw [hother j hj]
  refine ⟨⟨fun j y hy => ?_, by rw [hfacts]; exact h.nodup⟩, he, hget⟩
  by_cases hj : j = k
  · subst hj
    rw [hget] at hy
    simp only [Option.some.injEq] at hy
    subst hy
    exact hs.ext he
  · rw [hother j hj] at hy
    exact (h.nodes j y hy).ext he

/-- what is shown about the recursive calls -/
def RecOK (rules : List (NRule α)) (st : Eng α) (n : Nat)
    (rec : Store α → GAtom α → Option (Store α × Nat)) : Prop :=
  ∀ (t : Store α) (f : GAtom α), TInv rules st t → 0 < n → (∀ s, st.At f.1 s f.2 → s < n) →
    ∃ t' h, rec t f = some (t', h) ∧ TInv rules st t' ∧ Ext t t' ∧
      ∃ x, t'[h]? = some x ∧ x.fact = f ∧ (st.Facts f.1 f.2 → x.status.isSuccess = true)

theorem traceBody_spec {n : Nat} {rec : Store α → GAtom α → Option (Store α × Nat)} (hrec : RecOK rules st n rec)
    {arity : Tag → Nat} (hok : st.OK arity)
    {step : Nat} (hn : 0 < n) (hstep : step ≤ n) {σ : Variable → α} {asg : List (Variable × α)} (as : List BodyAtom)
    (hasg : ∀ a ∈ as, ∀ v ∈ a.terms, lookup asg v = some (σ v))
    (has : ∀ a ∈ as, Before st.At step a.pred (a.terms.map σ)) {t : Store α} (h : TInv rules st t) (subs : List Nat) :
    ∃ t' subs', traceBody rec asg as t subs = some (t', some (subs ++ subs')) ∧ TInv rules st t' ∧ Ext t t' ∧
      List.Forall₂ (fun (a : BodyAtom) h => Done t' (a.pred, a.terms.map σ) h) as subs' := by
  induction as generalizing t subs with
  | nil => exact ⟨t, [], by simp [traceBody], h, Ext.refl t, .nil⟩
  | cons a as ih =>
    have hrow : a.terms.mapM (lookup asg) = some (a.terms.map σ) := by
      have : ∀ vs : List Variable, (∀ v ∈ vs, lookup asg v = some (σ v)) → vs.mapM (lookup asg) = some (vs.map σ) := by
        intro vs hvs
        induction vs with
        | nil => rfl
        | cons v vs ih => rw [List.mapM_cons, hvs v (by simp), ih fun w hw => hvs w (by simp [hw])]; rfl
      exact this a.terms (hasg a (by simp))
    obtain ⟨s, hs1, hs2⟩ := has a (by simp)
    obtain ⟨t1, k, e1, e2, e3, x, e4, e5, e6⟩ := hrec t (a.pred, a.terms.map σ) h hn
      (fun s' hs' => by have := hok.unique _ _ _ _ hs' hs2; omega)
    have hsucc : x.status.isSuccess = true := e6 ⟨s, hs2⟩
    obtain ⟨t2, subs', g1, g2, g3, g4⟩ := ih (fun b hb => hasg b (by simp [hb])) (fun b hb => has b (by simp [hb])) e2 (subs ++ [k])
    refine ⟨t2, k :: subs', ?_, g2, e3.trans g3, .cons ?_ g4⟩
    · unfold traceBody
      rw [hrow]
      simp only [Option.bind_eq_bind, Option.bind_some, e1]
      rw [if_pos (by unfold status; rw [e4]; exact hsucc), g1]
      simp
    · exact Done.ext g3 ⟨x, e4, e5, hsucc⟩

theorem traceHeads_spec {c : Choice α} (hc : c.OK) {n : Nat} {rec : Store α → GAtom α → Option (Store α × Nat)}
    (hrec : RecOK rules st n rec) {arity : Tag → Nat} (hok : st.OK arity) {f : GAtom α} {step i h : Nat} (hstep : step ≠ 0) (hn : step ≤ n)
    (hat : st.At f.1 step f.2) (hi : st.history[step]? = some i) {r : NRule α} (hr : rules[i]? = some r) (hro : RuleOK r arity)
    (hho : HeadOK r arity) (hex : r.isExistential = false) (hto : TraceOK r) (hs : List (HeadAtom α × Nat))
    (hsub : ∀ x ∈ hs, r.head[x.2]? = some x.1)
    (hwit : ∃ x ∈ hs, ∃ σ, BodyHolds r (Before st.At step) (Before st.At step) σ ∧ x.1.pred = f.1 ∧ x.1.inst σ = f.2)
    {t : Store α} (ht : TInv rules st t) (hh : ∃ x, t[h]? = some x ∧ x.fact = f) :
    ∃ t', traceHeads c st.source rec f h i step r hs t = some t' ∧ TInv rules st t' ∧ Ext t t' ∧ Done t' f h := by
  have hcur : step < st.cur := by obtain ⟨e, he, rfl, -⟩ := hat; exact hok.steps _ e he
  have hsrc : SrcOK st.source st.At arity step := ⟨fun p lo hi row hle => hok.srcOK.mem p lo hi row (hle.trans hcur.le), hok.len⟩
  have hpos : 0 < step := Nat.pos_of_ne_zero hstep
  induction hs with
  | nil => obtain ⟨x, hx, -⟩ := hwit; simp at hx
  | cons y hs ih =>
    obtain ⟨hd, k⟩ := y
    have hk : r.head[k]? = some hd := hsub (hd, k) (by simp)
    have hexv := (not_isExistential hex (List.mem_of_getElem? hk)).2
    have hvars : ∀ v, Primitive.var v ∈ hd.terms → v ∈ hd.vars := by
      intro v hv; exact List.mem_filterMap.2 ⟨_, hv, rfl⟩
    have hnoagg : r.aggregation = none := by
      have := hto.plain; unfold NRule.containsAggregates at this; simpa using this
    have hsafe : ∀ v, Primitive.var v ∈ hd.terms → SafeVar r.positive r.operations v := fun v hv =>
      hho.headSafe k hd hk (by rw [hnoagg]; simp) v (hvars v hv) (hexv v (hvars v hv))
    have next : (¬ ∃ σ, BodyHolds r (Before st.At step) (Before st.At step) σ ∧ hd.pred = f.1 ∧ hd.inst σ = f.2) →
        ∃ t', traceHeads c st.source rec f h i step r hs t = some t' ∧ TInv rules st t' ∧ Ext t t' ∧ Done t' f h := by
      intro hno
      refine ih (fun x hx => hsub x (by simp [hx])) ?_
      obtain ⟨x, hx, hx'⟩ := hwit
      rcases List.mem_cons.1 hx with rfl | hx
      · exact absurd hx' hno
      · exact ⟨x, hx, hx'⟩
    unfold traceHeads
    by_cases hp : hd.pred = f.1
    swap
    · rw [if_pos hp]; exact next fun ⟨σ, _, h, _⟩ => hp h
    rw [if_neg (by simpa using hp)]
    have hl : hd.terms.length = f.2.length := by
      rw [hok.len _ _ _ hat, ← hp]
      exact hho.headArity hd (List.mem_of_getElem? hk)
    rcases hu : unify (hd.terms.zip f.2) [] with _ | g
    · simp only
      refine next fun ⟨σ, _, _, he⟩ => ?_
      obtain ⟨g', hg', -⟩ := unify_complete σ hd.terms (g := []) (fun _ h => by simp at h)
      have he' : hd.terms.map (Primitive.inst σ) = f.2 := he
      rw [he', hu] at hg'
      cases hg'
    simp only
    obtain ⟨-, u2, u3⟩ := unify_sound hd.terms f.2 hl (fun v hv => hexv v (hvars v hv)) hu
    have hg : ∀ x ∈ c.perm g, SafeVar r.positive r.operations x.1 := by
      intro x hx
      rcases u2 x ((hc.perm g).mem_iff.1 hx) with h | h
      · simp at h
      · exact hsafe _ h
    rcases hq : traceQuery c st.source step r (c.perm g) with _ | row
    · simp only
      refine next fun ⟨σ, hb, _, he⟩ => ?_
      obtain ⟨g', hg', hag⟩ := unify_complete σ hd.terms (g := []) (fun _ h => by simp at h)
      have he' : hd.terms.map (Primitive.inst σ) = f.2 := he
      rw [he', hu] at hg'
      simp only [Option.some.injEq] at hg'
      subst hg'
      obtain ⟨row, hrow⟩ := traceQuery_some hc hsrc hpos hro hto hg hb fun x hx => hag x ((hc.perm g).mem_iff.1 hx)
      rw [hrow] at hq; cases hq
    simp only
    obtain ⟨σ, b1, b2, b3, b4, b5⟩ := assignment_spec hsrc hpos hro hto hg (traceQuery_mem hc hq)
    obtain ⟨t1, subs, e1, e2, e3, e4⟩ := traceBody_spec hrec hok (by omega) hn r.positive
      (fun a ha v hv => b3 v (List.mem_flatMap.2 ⟨a, ha, hv⟩)) b1.pos ht []
    rw [e1]
    simp only [Option.bind_eq_bind, Option.bind_some, List.nil_append]
    obtain ⟨x, hx, rfl⟩ := hh
    obtain ⟨x1, hx1, hx2, -⟩ := e3 h x hx
    obtain ⟨w1, w2, w3⟩ := update_spec e2 hx1
      (s := .success (.derived i ((traceOutput st.source step r (c.perm g)).zip row) k subs)) (fun _ => rfl)
      ⟨r, hd, σ, step, by rw [hx2]; exact hat, hstep, hi, hr, hk, by rw [hx2]; exact hp, by
        rw [hx2]; exact u3 σ fun y hy => b2 y ((hc.perm g).mem_iff.2 hy), b1, ⟨b5, b4⟩, e4⟩
    exact ⟨_, rfl, w1, e3.trans w2, ⟨_, w3, hx2, rfl⟩⟩

/-- **Tracing a fact**: the recursion ends, and succeeds if and only if the fact is stored. -/
theorem traceRec_spec {c : Choice α} (hc : c.OK) {cfgs : List RuleCfg} {arity : Tag → Nat} (hp : ProgOK rules cfgs arity)
    (hto : ∀ r ∈ rules, TraceOK r) (hist : Hist rules arity edb st) (n : Nat) :
    RecOK rules st n (traceRec c rules st n) := by
  have hok := hist.ok
  induction n with
  | zero => intro t f _ h; omega
  | succ n ih =>
    intro t f ht _ hlt
    obtain ⟨r1, r2, x, hx, hxf⟩ := register_spec ht f
    unfold traceRec
    set t0 := (register t f).1
    set h0 := (register t f).2
    have hst : status t0 h0 = x.status := by unfold status; rw [hx]; rfl
    have hstat := r1.nodes h0 x hx
    rw [hxf] at hstat
    by_cases hkn : (status t0 h0).isKnown = true
    · rw [if_pos hkn]
      refine ⟨t0, h0, rfl, r1, r2, x, hx, hxf, fun hf => ?_⟩
      rw [hst] at hkn
      rcases hs : x.status with _ | d | _
      · rw [hs] at hkn; cases hkn
      · rfl
      · rw [hs] at hstat; exact absurd hf hstat
    rw [if_neg hkn]
    have hunk : x.status.isSuccess = true → False := by
      rw [hst] at hkn
      rcases hs : x.status with _ | d | _
      · intro h; cases h
      · rw [hs] at hkn; exact absurd rfl hkn
      · intro h; cases h
    rcases hfind : st.findTableRow f.1 f.2 with _ | step
    · simp only
      have hno := Eng.findTableRow_none hfind
      obtain ⟨w1, w2, w3⟩ := update_spec r1 hx (s := .fail) (fun h => absurd h (fun h => hunk h)) (by rw [hxf]; exact hno)
      exact ⟨_, h0, rfl, w1, r2.trans w2, _, w3, hxf, fun hf => absurd hf hno⟩
    simp only
    have hat := Eng.findTableRow_some hfind
    by_cases hin : f.1 ∉ derived rules ∨ step = 0
    · rw [if_pos hin]
      have h0' : step = 0 := by
        rcases hin with hin | hin
        · by_contra hne
          obtain ⟨i, r, -, hr, hd⟩ := hist.src _ _ _ hat hne
          have hrm := List.mem_of_getElem? hr
          exact hin (List.mem_flatMap.2 ⟨r, hrm, (hd.arity (hp.rule r hrm).2.1).2⟩)
        · exact hin
      subst h0'
      obtain ⟨w1, w2, w3⟩ := update_spec r1 hx (s := .success .input) (fun _ => rfl) (by rw [hxf]; exact hat)
      exact ⟨_, h0, rfl, w1, r2.trans w2, _, w3, hxf, fun _ => rfl⟩
    · rw [if_neg hin]
      push Not at hin
      obtain ⟨i, r, hi, hr, hd⟩ := hist.src _ _ _ hat hin.2
      have hrm := List.mem_of_getElem? hr
      obtain ⟨hro, hho, hex⟩ := hp.rule r hrm
      have hwit : ∃ x ∈ r.head.zipIdx, ∃ σ, BodyHolds r (Before st.At step) (Before st.At step) σ ∧ x.1.pred = f.1 ∧
          x.1.inst σ = f.2 := by
        have hnoagg : r.aggregation = none := by
          have := (hto r hrm).plain; unfold NRule.containsAggregates at this; simpa using this
        generalize hq1 : f.1 = q1 at hd
        generalize hq2 : f.2 = q2 at hd
        cases hd with
        | @plain σ hd k hb hk _ =>
          refine ⟨(hd, k), ?_, σ, hb, rfl, rfl⟩
          rw [List.mem_zipIdx_iff_getElem?]; exact hk
        | agg _ ha _ => rw [hnoagg] at ha; cases ha
      obtain ⟨t', e1, e2, e3, x', e4, e5, e6⟩ := traceHeads_spec hc ih hok (i := i) (h := h0) hin.2 (by have := hlt step hat; omega) hat
        hi hr hro hho hex (hto r hrm) r.head.zipIdx (fun y hy => List.mem_zipIdx_iff_getElem?.1 hy) hwit r1 ⟨x, hx, hxf⟩
      rw [hi]
      simp only [Option.bind_eq_bind, Option.bind_some, hr, e1]
      exact ⟨t', h0, rfl, e2, r2.trans e3, x', e4, e5, fun _ => e6⟩

theorem traceAll_spec {c : Choice α} (hc : c.OK) {cfgs : List RuleCfg} {arity : Tag → Nat} (hp : ProgOK rules cfgs arity)
    (hto : ∀ r ∈ rules, TraceOK r) (hist : Hist rules arity edb st) {fuel : Nat} (hfuel : st.cur ≤ fuel) (fs : List (GAtom α))
    {t : Store α} (ht : TInv rules st t) :
    ∃ t' hs, traceAll c rules st fuel fs t = some (t', hs) ∧ TInv rules st t' ∧ Ext t t' ∧
      List.Forall₂ (fun f h => ∃ x, t'[h]? = some x ∧ x.fact = f ∧ (st.Facts f.1 f.2 → x.status.isSuccess = true)) fs hs := by
  induction fs generalizing t with
  | nil => exact ⟨t, [], rfl, ht, Ext.refl t, .nil⟩
  | cons f fs ih =>
    have hpos := hist.ok.pos
    obtain ⟨t1, h, e1, e2, e3, x, e4, e5, e6⟩ := traceRec_spec hc hp hto hist fuel t f ht (by omega) (by
      rintro s ⟨e, he, rfl, -⟩
      have := hist.ok.steps _ e he; omega)
    obtain ⟨t2, hs, g1, g2, g3, g4⟩ := ih e2
    refine ⟨t2, h :: hs, ?_, g2, e3.trans g3, .cons ?_ g4⟩
    · unfold traceAll
      simp only [e1, Option.bind_eq_bind, Option.bind_some, g1]
      rfl
    · obtain ⟨y, k1, k2, k3⟩ := g3 h x e4
      exact ⟨y, k1, k2.trans e5, fun hf => k3 (e6 hf)⟩

end
end Trace
end Verif
