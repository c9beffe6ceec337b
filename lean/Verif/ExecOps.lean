import Verif.ExecInv

/-!
# Execution plans: operations on operands in other orders

Each operation, applied to operands in the orders chosen by `execution_node` (`/repo/nemo-physical/src/management/execution_plan.rs:706-1040`),
computes the rows of the node in the requested order.
-/

set_option linter.unusedSimpArgs false
set_option linter.unusedSectionVars false
set_option linter.unusedVariables false

namespace Verif
namespace XPlan
open Permut (Built Moves)
variable {α : Type} [SVal α] {M V U B T N : Type} [DecidableEq M] [DecidableEq B]

theorem orderedMarkers_spec {o : Permut} (ho : Built o) {ms : List M} (hm : Moves o ms.length) :
    ∃ out, orderedMarkers ms o = some out ∧ o.permute ms = some out := by
  obtain ⟨out, h1, h2, -⟩ := Permut.permute_moves ho ms hm
  refine ⟨out, ?_, h1⟩
  unfold orderedMarkers
  cases ms with
  | nil => rw [List.eq_nil_of_length_eq_zero h2]; rfl
  | cons a l => exact h1

theorem ofFn_cast {β : Type} {n k : Nat} (h : k = n) (f : Fin n → β) : (List.ofFn fun i : Fin k => f (i.cast h)) = List.ofFn f := by
  subst h; rfl

namespace Ctx
variable {X : Ctx α M V U B T N} {L : List (Nat × Permut)} {G : List Ghost}

theorem zero_good {o : Permut} (ho : Built o) (hm : Moves o 0) (m : Mode) :
    X.PlanGood L G (.zero : Plan M V U B T N) m 0 (PermRows o fun r => r = []) := by
  refine ⟨fun l hl => by simp [Plan.leaves] at hl, fun ars tb _ => ⟨trivial, rfl, fun r => ?_⟩⟩
  obtain ⟨x, h1, h2, -⟩ := Permut.permute_moves (β := α) ho [] hm
  have hx : x = [] := List.eq_nil_of_length_eq_zero h2
  subst hx
  constructor
  · intro h
    rw [Plan.Sem] at h
    exact ⟨[], rfl, by rw [h1, h]⟩
  · rintro ⟨x, rfl, e⟩
    rw [h1] at e
    exact (Option.some.inj e).symm

theorem load_good {i t : Nat} {oc : Permut} (hi : L[i]? = some (t, oc)) (m : Mode) :
    X.PlanGood L G (.leaf (.load i) : Plan M V U B T N) m (X.tabAr t) (PermRows oc (X.tab t)) := by
  refine ⟨fun l hl => ?_, fun ars tb ha => ⟨trivial, (ha.1 i t oc hi).1, fun r => ?_⟩⟩
  · rw [Plan.leaves, List.mem_singleton] at hl
    subst hl
    exact (List.getElem?_eq_some_iff.mp hi).1
  · rw [Plan.Sem, (ha.1 i t oc hi).2]

theorem computed_good {k : Nat} {g : Ghost} (hk : G[k]? = some g) (m : Mode) :
    X.PlanGood L G (.leaf (.computed k) : Plan M V U B T N) m (X.ar (X.nd g.id)) (PermRows g.ord (X.sem (X.nd g.id))) := by
  refine ⟨fun l hl => ?_, fun ars tb ha => ⟨trivial, (ha.2 k g hk).1, fun r => ?_⟩⟩
  · rw [Plan.leaves, List.mem_singleton] at hl
    subst hl
    exact (List.getElem?_eq_some_iff.mp hk).1
  · rw [Plan.Sem, (ha.2 k g hk).2]

variable {n : Nat} {ms out : List M} {o : Permut} {kms ams : Fin n → List M} {os : Fin n → Permut} {kar : Fin n → Nat}
  {S : Fin n → List α → Prop} {ps : Fin n → Plan M V U B T N} {m : Mode}

theorem join_good (ho : Built o) (hm : Moves o ms.length) (hout : o.permute ms = some out)
    (hn : n ≠ 0) (hms : ms.Nodup) (hk : ∀ i, (kms i).Nodup ∧ (∀ x ∈ kms i, x ∈ ms) ∧ (kms i).length = kar i)
    (hused : ∀ x ∈ ms, ∃ i, x ∈ kms i) (hal : ∀ i, align (kms i) out = some (ams i, os i))
    (hS : ∀ i r, S i r → r.length = kar i)
    (hp : ∀ i, X.PlanGood L G (ps i) (if n = 1 then m else .weak) (kar i) (PermRows (os i) (S i))) :
    X.PlanGood L G (.join out (List.ofFn ams) fun i => ps (i.cast List.length_ofFn)) m ms.length
      (PermRows o (opSem X.e.env X.tab (.join : Kind M V U B T N) ms kms S)) := by
  obtain ⟨p1, p2, p3⟩ := permute_perm ho hm hout
  have ha : ∀ i, Built (os i) ∧ Moves (os i) (kms i).length ∧ (os i).permute (kms i) = some (ams i) ∧
      (ams i).Sublist out ∧ (ams i).length = (kms i).length := by
    intro i
    obtain ⟨a, b, h1, h2⟩ := align_spec (hk i).1 (p3 hms) (fun x hx => (p2 x).mpr ((hk i).2.1 x hx))
    rw [hal i] at h1
    cases h1
    exact h2
  have hget : ∀ i : Fin (List.ofFn ams).length, (List.ofFn ams).get i = ams (i.cast List.length_ofFn) := fun i => by
    rw [List.get_ofFn]
  refine ⟨fun l hl => ?_, fun ars tb hA => ⟨?_, p1, fun r => ?_⟩⟩
  · rw [Plan.leaves] at hl
    obtain ⟨l', h1, h2⟩ := List.mem_flatten.mp hl
    obtain ⟨i, rfl⟩ := List.mem_ofFn.mp h1
    exact (hp _).1 l h2
  · refine ⟨⟨p3 hms, ?_, ?_⟩, ?_, fun i => ?_⟩
    · intro l hl
      obtain ⟨i, rfl⟩ := List.mem_ofFn.mp hl
      exact (ha i).2.2.2.1
    · intro x hx
      obtain ⟨i, hi⟩ := hused x ((p2 x).mp hx)
      exact ⟨ams i, List.mem_ofFn.mpr ⟨i, rfl⟩, ((permute_perm (ha i).1 (ha i).2.1 (ha i).2.2.1).2.1 x).mpr hi⟩
    · intro h
      have := congrArg List.length h
      simp at this
      exact hn this
    · have := (hp (i.cast List.length_ofFn)).2 ars tb hA
      have hmode : (if (List.ofFn ams).length = 1 then m else Mode.weak) = if n = 1 then m else Mode.weak := by
        simp only [List.length_ofFn]
      rw [hget, hmode]
      refine ⟨?_, this.1⟩
      rw [this.2.1, (ha _).2.2.2.2, (hk _).2.2]
  · rw [show opSem X.e.env X.tab (.join : Kind M V U B T N) ms kms S =
      fun r => ∃ f : M → α, r = ms.map f ∧ ∀ i, S i ((kms i).map f) from rfl, permRows_named ho hm hout]
    rw [Plan.Sem]
    have key : ∀ (f : M → α) i, Plan.Sem X.e.env tb (ps i) ((ams i).map f) ↔ S i ((kms i).map f) := fun f i => by
      rw [((hp i).2 ars tb hA).2.2, permRows_map (ha i).1 (ha i).2.1 (ha i).2.2.1 (fun r hr => by rw [hS i r hr, (hk i).2.2])]
    constructor
    · rintro ⟨f, rfl, h⟩
      refine ⟨f, rfl, fun i => ?_⟩
      have := h (i.cast List.length_ofFn.symm)
      rw [hget] at this
      exact (key f i).mp this
    · rintro ⟨f, rfl, h⟩
      refine ⟨f, rfl, fun i => ?_⟩
      rw [hget]
      exact (key f _).mpr (h _)

theorem union_good {a : Nat} (hk : ∀ i, kar i = a)
    (hp : ∀ i, X.PlanGood L G (ps i) (if n ≤ 1 then m else ⟨m.sk, true⟩) (kar i) (PermRows o (S i))) :
    X.PlanGood L G (.union a n ps) m a (PermRows o (opSem X.e.env X.tab (.union a : Kind M V U B T N) ms kms S)) := by
  refine ⟨fun l hl => ?_, fun ars tb hA => ⟨fun i => ?_, rfl, fun r => ?_⟩⟩
  · rw [Plan.leaves] at hl
    obtain ⟨l', h1, h2⟩ := List.mem_flatten.mp hl
    obtain ⟨i, rfl⟩ := List.mem_ofFn.mp h1
    exact (hp _).1 l h2
  · have := (hp i).2 ars tb hA
    exact ⟨by rw [this.2.1, hk], this.1⟩
  · rw [Plan.Sem]
    constructor
    · rintro ⟨i, hi⟩
      obtain ⟨x, hx, e⟩ := (((hp i).2 ars tb hA).2.2 r).mp hi
      exact ⟨x, ⟨i, hx⟩, e⟩
    · rintro ⟨x, ⟨i, hx⟩, e⟩
      exact ⟨i, (((hp i).2 ars tb hA).2.2 r).mpr ⟨x, hx, e⟩⟩

theorem filter_good {S : List α → Prop} {p : Plan M V U B T N} {fs : List (FTree V U B T N M)} {kms : Fin 1 → List M}
    (ho : Built o) (hm : Moves o ms.length) (hout : o.permute ms = some out)
    (hms : ms.Nodup) (hne : ms ≠ []) (hf : ∀ f ∈ fs, TFilter.FilterOK ms f) (hmode : m.sk = true → m.cu = true → fs = [])
    (hS : ∀ r, S r → r.length = ms.length)
    (hp : X.PlanGood L G p (Plan.filterMode X.e fs m) ms.length (PermRows o S)) :
    X.PlanGood L G (.filter out fs p) m ms.length
      (PermRows o (opSem X.e.env X.tab (.filter fs : Kind M V U B T N) ms kms fun _ => S)) := by
  obtain ⟨p1, p2, p3⟩ := permute_perm ho hm hout
  refine ⟨fun l hl => hp.1 l (by rw [Plan.leaves] at hl; exact hl), fun ars tb hA => ⟨?_, p1, fun r => ?_⟩⟩
  · have := hp.2 ars tb hA
    refine ⟨p3 hms, ?_, fun f h => ⟨fun x hx => (p2 x).mpr ((hf f h).refs x hx), (hf f h).nary⟩, by rw [this.2.1, p1], hmode, this.1⟩
    rintro rfl
    exact hne (List.eq_nil_of_length_eq_zero p1.symm)
  · have e : opSem X.e.env X.tab (.filter fs : Kind M V U B T N) ms kms (fun _ => S) =
        fun r => ∃ f : M → α, r = ms.map f ∧ S (ms.map f) ∧
        ∀ t ∈ fs, ∃ v, t.sem X.e.env.sem (fun m => some (X.e.env.val (f m))) = .val v ∧ X.e.env.toBool v = some true := by
      funext r
      apply propext
      constructor
      · rintro ⟨f, h1, ⟨i, h2⟩, h3⟩
        exact ⟨f, h1, by rw [← h1]; exact h2, h3⟩
      · rintro ⟨f, h1, h2, h3⟩
        exact ⟨f, h1, ⟨0, by rw [h1]; exact h2⟩, h3⟩
    rw [e, permRows_named ho hm hout, Plan.Sem]
    have key : ∀ f : M → α, Plan.Sem X.e.env tb p (out.map f) ↔ S (ms.map f) := fun f => by
      rw [(hp.2 ars tb hA).2.2, permRows_map ho hm hout hS]
    constructor
    · rintro ⟨f, rfl, h1, h2⟩; exact ⟨f, rfl, (key f).mp h1, h2⟩
    · rintro ⟨f, rfl, h1, h2⟩; exact ⟨f, rfl, (key f).mpr h1, h2⟩

theorem function_good {S : List α → Prop} {p : Plan M V U B T N} {funs : List (M × FTree V U B T N M)} {kms : Fin 1 → List M}
    (hms : ms.Nodup) (hf : TFn.FnOK X.e.env ms funs) (hpred : TFn.PredOK X.e.env X.e.te (TFn.ProgOf ms funs))
    (hdom : ∀ f ∈ funs, f.2.refs = [] → ∀ v, f.2.sem X.e.env.sem (fun _ => none) = .val v → ty (X.e.env.sto v) ∈ X.e.te.dom v)
    (hp : X.PlanGood L G p m (TFn.inputCols ms funs).length (PermRows ident S)) :
    X.PlanGood L G (.function ms funs p) m ms.length
      (PermRows ident (opSem X.e.env X.tab (.function funs : Kind M V U B T N) ms kms fun _ => S)) := by
  refine ⟨fun l hl => hp.1 l (by rw [Plan.leaves] at hl; exact hl), fun ars tb hA => ⟨?_, rfl, fun r => ?_⟩⟩
  · have := hp.2 ars tb hA
    exact ⟨hms, hf, hpred, hdom, this.2.1, this.1⟩
  · rw [permRows_ident, Plan.Sem]
    have key : ∀ r, Plan.Sem X.e.env tb p r ↔ S r := fun r => by rw [(hp.2 ars tb hA).2.2, permRows_ident]
    constructor
    · rintro ⟨f, h1, h2, h3⟩
      exact ⟨f, h1, ⟨0, (key _).mp h2⟩, h3⟩
    · rintro ⟨f, h1, ⟨i, h2⟩, h3⟩
      exact ⟨f, h1, (key _).mpr h2, h3⟩

theorem subtract_good {k : Nat} {kms ams : Fin (k + 1) → List M} {os : Fin (k + 1) → Permut} {kar : Fin (k + 1) → Nat}
    {S : Fin (k + 1) → List α → Prop} {ps : Fin (k + 1) → Plan M V U B T N}
    (ho : Built o) (hm : Moves o ms.length) (hout : o.permute ms = some out) (hms : ms.Nodup)
    (h0 : kar 0 = ms.length) (hk : ∀ i : Fin k, (kms i.succ).Nodup ∧ (∀ x ∈ kms i.succ, x ∈ ms) ∧ (kms i.succ).length = kar i.succ)
    (hal : ∀ i : Fin k, align (kms i.succ) out = some (ams i.succ, os i.succ)) (hos : os 0 = o)
    (hS : ∀ i r, S i r → r.length = kar i)
    (hp : ∀ i, X.PlanGood L G (ps i) (if i.val = 0 then m else .weak) (kar i) (PermRows (os i) (S i))) :
    X.PlanGood L G (.subtract out (List.ofFn fun i : Fin k => ams i.succ) (ps 0) fun i => ps (i.cast List.length_ofFn).succ) m
      ms.length (PermRows o (opSem X.e.env X.tab (.subtract : Kind M V U B T N) ms kms S)) := by
  obtain ⟨p1, p2, p3⟩ := permute_perm ho hm hout
  have ha : ∀ i : Fin k, Built (os i.succ) ∧ Moves (os i.succ) (kms i.succ).length ∧ (os i.succ).permute (kms i.succ) = some (ams i.succ) ∧
      (ams i.succ).Sublist out ∧ (ams i.succ).length = (kms i.succ).length := by
    intro i
    obtain ⟨a, b, h1, h2⟩ := align_spec (hk i).1 (p3 hms) (fun x hx => (p2 x).mpr ((hk i).2.1 x hx))
    rw [hal i] at h1
    cases h1
    exact h2
  have hget : ∀ i : Fin (List.ofFn fun i : Fin k => ams i.succ).length, (List.ofFn fun i : Fin k => ams i.succ).get i =
      ams (i.cast List.length_ofFn).succ := fun i => by rw [List.get_ofFn]
  refine ⟨fun l hl => ?_, fun ars tb hA => ⟨?_, p1, fun r => ?_⟩⟩
  · rw [Plan.leaves] at hl
    rcases List.mem_append.mp hl with hl | hl
    · exact (hp 0).1 l hl
    · obtain ⟨l', h1, h2⟩ := List.mem_flatten.mp hl
      obtain ⟨i, rfl⟩ := List.mem_ofFn.mp h1
      exact (hp _).1 l h2
  · have hz := (hp 0).2 ars tb hA
    rw [if_pos (by rfl)] at hz
    refine ⟨p3 hms, ?_, by rw [hz.2.1, h0, p1], hz.1, fun i => ?_⟩
    · intro l hl
      obtain ⟨i, rfl⟩ := List.mem_ofFn.mp hl
      exact (ha i).2.2.2.1
    · have := (hp (i.cast List.length_ofFn).succ).2 ars tb hA
      rw [if_neg (by simp)] at this
      rw [hget]
      exact ⟨by rw [this.2.1, (ha _).2.2.2.2, (hk _).2.2], this.1⟩
  · have e : opSem X.e.env X.tab (.subtract : Kind M V U B T N) ms kms S =
        fun r => ∃ f : M → α, r = ms.map f ∧ S 0 (ms.map f) ∧ ∀ i : Fin k, ¬ S i.succ ((kms i.succ).map f) := by
      funext r
      apply propext
      constructor
      · rintro ⟨f, h1, h2⟩
        refine ⟨f, h1, ?_, fun i => ?_⟩
        · have := h2 0
          rw [if_pos (by rfl)] at this
          rw [← h1]; exact this
        · have := h2 i.succ
          rw [if_neg (by simp)] at this
          exact this
      · rintro ⟨f, h1, h2, h3⟩
        refine ⟨f, h1, fun i => ?_⟩
        refine Fin.cases ?_ (fun i => ?_) i
        · rw [if_pos (by rfl), h1]; exact h2
        · rw [if_neg (by simp)]; exact h3 i
    rw [e, permRows_named ho hm hout, Plan.Sem]
    have key0 : ∀ f : M → α, Plan.Sem X.e.env tb (ps 0) (out.map f) ↔ S 0 (ms.map f) := fun f => by
      rw [((hp 0).2 ars tb hA).2.2, hos, permRows_map ho hm hout (fun r hr => by rw [hS 0 r hr, h0])]
    have key : ∀ (f : M → α) (i : Fin k), Plan.Sem X.e.env tb (ps i.succ) ((ams i.succ).map f) ↔ S i.succ ((kms i.succ).map f) := fun f i => by
      rw [((hp i.succ).2 ars tb hA).2.2, permRows_map (ha i).1 (ha i).2.1 (ha i).2.2.1 (fun r hr => by rw [hS _ r hr, (hk i).2.2])]
    constructor
    · rintro ⟨f, rfl, h1, h2⟩
      refine ⟨f, rfl, (key0 f).mp h1, fun i => ?_⟩
      have := h2 (i.cast List.length_ofFn.symm)
      rw [hget] at this
      exact fun h => this ((key f i).mpr h)
    · rintro ⟨f, rfl, h1, h2⟩
      refine ⟨f, rfl, (key0 f).mpr h1, fun i => ?_⟩
      rw [hget]
      exact fun h => h2 _ ((key f _).mp h)

theorem project_good [Nonempty α] {S : List α → Prop} {p : Plan M V U B T N} {kms : Fin 1 → List M} (hms : ms.Nodup)
    (hk : (kms 0).Nodup) (hsub : ∀ x ∈ ms, x ∈ kms 0) (hS : ∀ r, S r → r.length = (kms 0).length)
    (hp : X.PlanGood L G p ⟨false, false⟩ (kms 0).length (PermRows ident S)) (m : Mode) :
    ∃ g, GenPR.new ms (kms 0) = some g ∧ (g.isNoop = true → ms = kms 0) ∧
      X.TreeGood L G (.project g p) m ms.length
        (PermRows ident (opSem X.e.env X.tab (.project : Kind M V U B T N) ms kms fun _ => S)) := by
  obtain ⟨g, h1, h2, h3, h4, h5, h6, h7⟩ := genPR_new hms hsub
  have hrows : ∀ r, PermRows ident (opSem X.e.env X.tab (.project : Kind M V U B T N) ms kms fun _ => S) r ↔
      ProjRows g.choice.asVector S r := fun r => by
    rw [permRows_ident, h2, projRows_named hk hsub hS]
    constructor
    · rintro ⟨f, e, i, h⟩
      rw [Subsingleton.elim i 0] at h
      exact ⟨f, e, h⟩
    · rintro ⟨f, e, h⟩; exact ⟨f, e, 0, h⟩
  refine ⟨g, h1, h6, (kms 0).length, S, hp.congr (permRows_ident S), h3, by rw [h2, List.length_map], h4, ?_, ?_, ?_, hrows⟩
  · intro i hi
    rw [h2] at hi
    obtain ⟨x, hx, rfl⟩ := List.mem_map.mp hi
    exact List.idxOf_lt_length_iff.mpr (hsub x hx)
  · exact fun hn => h5 (h7 hn)
  · intro hn
    have e := h6 hn
    refine ⟨by rw [e], fun r => ?_⟩
    rw [hrows, h2, projRows_named hk hsub hS, e]
    constructor
    · rintro ⟨f, rfl, h⟩; exact h
    · intro h
      have hl := hS r h
      refine ⟨fun x => (r[(kms 0).idxOf x]?).getD (Classical.arbitrary α), ?_, ?_⟩
      · refine List.ext_getElem (by simp [hl]) fun i a1 a2 => ?_
        rw [List.getElem_map, hk.idxOf_getElem, List.getElem?_eq_getElem a1, Option.getD_some]
      · have : ((kms 0).map fun x => (r[(kms 0).idxOf x]?).getD (Classical.arbitrary α)) = r := by
          refine List.ext_getElem (by simp [hl]) fun i a1 a2 => ?_
          rw [List.getElem_map, hk.idxOf_getElem, List.getElem?_eq_getElem a2, Option.getD_some]
        rw [this]; exact h

end Ctx
end XPlan
end Verif
