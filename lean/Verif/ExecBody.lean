import Verif.ExecTrees

/-!
# Execution plans: the trees compute the nodes

Proofs about `execution_node` and `finalize` (`/repo/nemo-physical/src/management/execution_plan.rs:706-1098`).
-/

set_option linter.unusedSimpArgs false
set_option linter.unusedSectionVars false
set_option linter.unusedVariables false

namespace Verif
namespace XPlan
open Permut (Built Moves)
variable {α : Type} [SVal α] {M V U B T N : Type} [DecidableEq M] [DecidableEq B]

/-- a plan that can be executed determines the orders of all operands -/
theorem fits_orders {e : PEnv α V U B T N} {tabAr : Nat → Nat} {outs : List (Out M V U B T N)} {D : Nat → Prop} {id : Nat}
    {ms : List M} {kind : Kind M V U B T N} {n : Nat} {subs : Fin n → Node M V U B T N} {root : Nat} {o : Permut} {m : Mode}
    (h : Fits e tabAr outs D (.mk id ms kind n subs) root o m) :
    ∃ out, orderedMarkers ms o = some out ∧ ∃ al : Fin n → List M × Permut, ∀ i : Fin n, kidOrder kind out o i (subs i).markers = some (al i) := by
  obtain ⟨h1, h2, h3, h4, -⟩ := h
  have hout : ∃ out, orderedMarkers ms o = some out ∧ (ms.length = opArity tabAr kind ms (fun i => (subs i).arity tabAr) → o.permute ms = some out) := by
    by_cases hl : ms.length = opArity tabAr kind ms (fun i => (subs i).arity tabAr)
    · obtain ⟨out, a, b⟩ := orderedMarkers_spec h1 (ms := ms) (by rw [hl]; exact h2)
      exact ⟨out, a, fun _ => b⟩
    · rcases h3 with rfl | h3
      · exact ⟨[], rfl, fun h => absurd h hl⟩
      · exact absurd h3 hl
  obtain ⟨out, a, b⟩ := hout
  refine ⟨out, a, ?_⟩
  have : ∀ i : Fin n, ∃ x, kidOrder kind out o i (subs i).markers = some x := by
    intro i
    cases kind with
    | join =>
      have hp := b rfl
      obtain ⟨p1, p2, p3⟩ := permute_perm h1 (show Moves o ms.length from h2) hp
      obtain ⟨q1, q2, q3, q4⟩ := h4
      obtain ⟨x, y, hxy, -⟩ := align_spec (q3 i).1 (p3 q2) (fun z hz => (p2 z).mpr ((q3 i).2.1 z hz))
      exact ⟨_, hxy⟩
    | subtract =>
      have hp := b rfl
      obtain ⟨p1, p2, p3⟩ := permute_perm h1 (show Moves o ms.length from h2) hp
      obtain ⟨q1, q2, q3⟩ := h4
      have q3 := q3 i
      by_cases hi : i.val = 0
      · exact ⟨_, if_pos hi⟩
      · rw [if_neg hi] at q3
        obtain ⟨x, y, hxy, -⟩ := align_spec q3.1 (p3 q2) (fun z hz => (p2 z).mpr (q3.2.1 z hz))
        exact ⟨_, (if_neg hi).trans hxy⟩
    | fetch t fo => exact ⟨_, rfl⟩
    | union ar => exact ⟨_, rfl⟩
    | project => exact ⟨_, rfl⟩
    | filter fs => exact ⟨_, rfl⟩
    | function fs => exact ⟨_, rfl⟩
    | rename => exact ⟨_, rfl⟩
    | zero => exact ⟨_, rfl⟩
  exact ⟨fun i => (this i).choose, fun i => (this i).choose_spec⟩

/-- operands of a plan that can be executed can be executed -/
theorem fits_kid {e : PEnv α V U B T N} {tabAr : Nat → Nat} {outs : List (Out M V U B T N)} {D : Nat → Prop} {id : Nat}
    {ms : List M} {kind : Kind M V U B T N} {n : Nat} {subs : Fin n → Node M V U B T N} {root : Nat} {o : Permut} {m : Mode}
    (h : Fits e tabAr outs D (.mk id ms kind n subs) root o m) (i : Fin n) :
    ∃ root' o' m', Fits e tabAr outs D (subs i) root' o' m' := by
  obtain ⟨out, h1, al, h2⟩ := fits_orders h
  obtain ⟨-, -, -, -, -, h3⟩ := h
  have := h3 i out (al i) h1 (h2 i)
  cases ho : outOf outs root (subs i).id with
  | some x => exact ⟨_, _, _, (this.1 (by rw [ho]; rfl)).1⟩
  | none => exact ⟨_, _, _, (this.2 (by rw [ho]; rfl)).2⟩

/-- rows have the right number of columns -/
theorem fits_length {X : Ctx α M V U B T N} (htab : ∀ t r, X.tab t r → r.length = X.tabAr t) :
    ∀ (nd : Node M V U B T N) (root : Nat) (o : Permut) (m : Mode), Fits X.e X.tabAr X.outs X.D nd root o m →
      ∀ r, X.sem nd r → r.length = X.ar nd := by
  intro nd
  induction nd with
  | mk id ms kind n subs ih =>
    intro root o m h r hr
    have hk : ∀ i r, X.sem (subs i) r → r.length = X.ar (subs i) := by
      intro i
      obtain ⟨a, b, c, d⟩ := fits_kid h i
      exact ih i a b c d
    obtain ⟨h1, h2, h3, h4, -⟩ := h
    have hr : opSem X.e.env X.tab kind ms (fun i => (subs i).markers) (fun i => X.sem (subs i)) r := hr
    show r.length = opArity X.tabAr kind ms fun i => (subs i).arity X.tabAr
    cases kind with
    | fetch t fo => exact permRows_length h4.2.1 h4.2.2 (htab t) hr
    | zero => rw [show r = [] from hr]; rfl
    | join => obtain ⟨f, rfl, -⟩ := hr; simp [opArity]
    | union ar =>
      obtain ⟨i, hi⟩ := hr
      exact (hk i r hi).trans (h4 i)
    | subtract => obtain ⟨f, rfl, -⟩ := hr; simp [opArity]
    | project => obtain ⟨f, rfl, -⟩ := hr; simp [opArity]
    | filter fs => obtain ⟨f, rfl, -⟩ := hr; simp [opArity]
    | function fs => obtain ⟨f, rfl, -⟩ := hr; simp [opArity]
    | rename =>
      obtain ⟨i, hi⟩ := hr
      have h4 : n = 1 := h4
      subst h4
      rw [Subsingleton.elim i 0] at hi
      exact hk 0 r hi

namespace Ctx
variable {X : Ctx α M V U B T N}

/-- what the tree of an operand satisfies -/
structure KidGood (X : Ctx α M V U B T N) (root : Nat) (sub : Node M V U B T N) (o : Permut) (m : Mode) (L : List (Nat × Permut)) (G : List Ghost)
    (t : Tree M V U B T N) : Prop where
  tree : X.TreeGood L G t m (X.ar sub) (PermRows o (X.sem sub))
  isOp : t.isOp = true
  out : (outOf X.outs root sub.id).isSome → ∃ k dep, t = .op (.leaf (.computed k)) ∧ G[k]? = some ⟨sub.id, o, dep⟩
  notOut : outOf X.outs root sub.id = none → sub.kind.isRename = false → ∀ k, t ≠ .op (.leaf (.computed k))

theorem KidGood.mono {root : Nat} {sub : Node M V U B T N} {o : Permut} {m : Mode} {L L' : List (Nat × Permut)} {G G' : List Ghost}
    {t : Tree M V U B T N} (hL : L <+: L') (hG : G <+: G') (h : X.KidGood root sub o m L G t) : X.KidGood root sub o m L' G' t := by
  refine ⟨h.tree.mono hL hG, h.isOp, fun hs => ?_, h.notOut⟩
  obtain ⟨k, dep, a, b⟩ := h.out hs
  obtain ⟨g, rfl⟩ := hG
  exact ⟨k, dep, a, by rw [List.getElem?_append_left (List.getElem?_eq_some_iff.mp b).1]; exact b⟩

/-- the conditions on the output nodes -/
def OutsOK (X : Ctx α M V U B T N) : Prop := ∀ id y, findOut X.outs id = some y → y.node.id = id ∧ SubOK X.known X.nd y.node

theorem subOK_nd {K : Nat → Prop} {nd : Nat → Node M V U B T N} {x : Node M V U B T N} (h : SubOK K nd x) : nd x.id = x := by
  obtain ⟨i, ms, k, n, subs⟩ := x
  exact h.1

/-- An operand: an output node gets its own tree. -/
theorem wrap_spec (hX : X.OutsOK) {sub : Node M V U B T N} (hs : SubOK X.known X.nd sub)
    (hlen : ∀ r, X.sem sub r → r.length = X.ar sub) {root : Nat} {o : Permut} {m : Mode} (ho : Built o) (hm : Moves o (X.ar sub))
    (hr : (findOut X.outs root).isSome)
    (h1 : (outOf X.outs root sub.id).isSome → OutOK X.tabAr X.outs X.D root sub o ∧
      ∀ st G, X.Inv st G → X.BodyRes sub sub.id o ⟨false, false⟩ st G)
    (h2 : outOf X.outs root sub.id = none → sub.kind.isProject = false ∧ ∀ st G, X.Inv st G → X.BodyRes sub root o m st G)
    {st : St M V U B T N} {G : List Ghost} (hI : X.Inv st G) :
    ∃ t st' G', wrap X.outs sub.id (execBody X.outs sub) root o st = some (t, st') ∧ X.Inv st' G' ∧ Rel st G t.refs st' G' ∧
      X.KidGood root sub o m st'.loaded G' t := by
  unfold wrap
  cases hoo : outOf X.outs root sub.id with
  | some x =>
    have hx : findOut X.outs sub.id = some x := by
      unfold outOf at hoo
      split at hoo
      · simp at hoo
      · exact hoo
    obtain ⟨hO, hB⟩ := h1 (by rw [hoo]; rfl)
    have hxn : x.node = sub := by
      obtain ⟨a, b⟩ := hX _ _ hx
      rw [← subOK_nd b, a, subOK_nd hs]
    obtain ⟨k, st', G', dep, e1, e2, e3, e4⟩ := execTree_spec hx hxn (subOK_nd hs)
      (fun y hy => subOK_nd (hX _ _ hy).2) hlen ho hm hO hr hI (hB st G hI)
    refine ⟨.op (.leaf (.computed k)), st', G', ?_, e2, e3.le fun j => ?_, ?_, rfl, fun _ => ⟨k, dep, rfl, e4⟩, fun h => ?_⟩
    · dsimp only; rw [e1]; rfl
    · simp only [Tree.refs, Plan.refs, Plan.leaves, List.count_singleton]
      by_cases hjk : j = k
      · subst hjk; simp
      · rw [if_neg hjk, if_neg (by simp; exact fun h => hjk h.symm)]
    · have := computed_good (X := X) (L := st'.loaded) e4 m
      dsimp only at this
      rw [subOK_nd hs] at this
      exact this
    · rw [hoo] at h; simp at h
  | none =>
    obtain ⟨hp, hB⟩ := h2 hoo
    obtain ⟨t, st', G', e1, e2, e3, e4, e5⟩ := hB st G hI
    refine ⟨t, st', G', e1, e2, e3, e4, ?_, fun h => ?_, fun _ hn => ?_⟩
    · obtain ⟨i, ms, kind, n, subs⟩ := sub
      exact e5.1 hp
    · rw [hoo] at h; simp at h
    · obtain ⟨i, ms, kind, n, subs⟩ := sub
      exact e5.2.1 hp hn

theorem loadTable_spec {st : St M V U B T N} {G : List Ghost} (hI : X.Inv st G) {t : Nat} {o : Permut} (ho : Built o) (hm : Moves o (X.tabAr t))
    (hk : X.known t) :
    X.Inv (loadTable st t o).2 G ∧ Rel st G (fun _ => 0) (loadTable st t o).2 G ∧
      (loadTable st t o).2.loaded[(loadTable st t o).1]? = some (t, o) := by
  unfold loadTable
  cases hf : st.loaded.findIdx? fun x => x.1 == t && x.2.beq o with
  | some i =>
    refine ⟨hI, Rel.refl st G, ?_⟩
    obtain ⟨hl, h1, -⟩ := List.findIdx?_eq_some_iff_getElem.mp hf
    dsimp only
    rw [List.getElem?_eq_getElem hl]
    rw [Bool.and_eq_true, beq_iff_eq] at h1
    have := Built.eq_of_beq (hI.loaded _ (List.getElem_mem hl)).1 ho h1.2
    rw [← h1.1, ← this]
  | none =>
    refine ⟨⟨hI.len, fun j x g hx hg => ?_, hI.map, ?_⟩, ⟨List.prefix_append _ _, List.prefix_refl _, List.prefix_refl _, fun k => le_rfl⟩, ?_⟩
    · have he := hI.entry j x g hx hg
      exact he.ext (le_of_lt (List.getElem?_eq_some_iff.mp hg).1) (List.prefix_append _ _) (List.prefix_refl _)
        (fun i y hy => ⟨y, hy, Later.refl y⟩) (Later.refl x) he.used (fun y hy => .inl hy) (fun y hy => .inl hy)
    · intro x hx
      rcases List.mem_append.mp hx with hx | hx
      · exact hI.loaded x hx
      · rw [List.mem_singleton] at hx
        subst hx
        exact ⟨ho, hm, hk⟩
    · simp

theorem tree_op {t : Tree M V U B T N} (h : t.isOp = true) : ∃ p, t = .op p := by
  cases t with
  | op p => exact ⟨p, rfl⟩
  | project g p => simp [Tree.isOp] at h

theorem refs_flatten {n : Nat} (f : Fin n → Plan M V U B T N) (k : Nat) :
    (List.ofFn fun i => (f i).leaves).flatten.count (.computed k) = (List.ofFn fun i => Plan.refs (f i) k).sum := by
  rw [List.count_flatten, List.map_ofFn]
  rfl

theorem sum_one (f : Fin 1 → Nat) : (List.ofFn f).sum = f 0 := by simp [List.ofFn_succ]

/-- The tree of a node computes the rows of the node. -/
theorem body_spec [Nonempty α] (htab : ∀ t r, X.tab t r → r.length = X.tabAr t) (hX : X.OutsOK) :
    ∀ (nd : Node M V U B T N), SubOK X.known X.nd nd → ∀ (root : Nat) (o : Permut) (m : Mode), Fits X.e X.tabAr X.outs X.D nd root o m →
      (findOut X.outs root).isSome → ∀ st G, X.Inv st G → X.BodyRes nd root o m st G := by
  intro nd
  induction nd with
  | mk id ms kind n subs ih =>
    intro hs root o m hF hr st G hI
    obtain ⟨out, hout, al, hal⟩ := fits_orders hF
    have hlen : ∀ i r, X.sem (subs i) r → r.length = X.ar (subs i) := by
      intro i
      obtain ⟨a, b, c, d⟩ := fits_kid hF i
      exact fits_length htab _ a b c d
    obtain ⟨h1, h2, h3, h4, h5, h6⟩ := hF
    have hkid : ∀ i, Built (al i).2 ∧ Moves (al i).2 (X.ar (subs i)) := by
      intro i
      have := h6 i out (al i) hout (hal i)
      cases ho : outOf X.outs root (subs i).id with
      | some x =>
        have h := (this.1 (by rw [ho]; rfl)).1
        generalize subs i = s at h ⊢
        obtain ⟨a, b, c, d, e⟩ := s
        exact ⟨h.1, h.2.1⟩
      | none =>
        have h := (this.2 (by rw [ho]; rfl)).2
        generalize subs i = s at h ⊢
        obtain ⟨a, b, c, d, e⟩ := s
        exact ⟨h.1, h.2.1⟩
    obtain ⟨ts, st1, G1, e1, hI1, hR1, hQ⟩ := mapSt_spec (X := X) n
      (f := fun i => wrap X.outs (subs i).id (execBody X.outs (subs i)) root (al i).2)
      (Q := fun i L G t => X.KidGood root (subs i) (al i).2 (kidMode X.e kind n i m) L G t)
      (fun i L L' G G' t hL hG h => h.mono hL hG)
      (fun i st G hI => by
        have := h6 i out (al i) hout (hal i)
        refine wrap_spec hX (hs.2.2 i) (hlen i) (hkid i).1 (hkid i).2 hr (fun ho => ?_) (fun ho => ?_) hI
        · refine ⟨(this.1 ho).2, fun st G hI => ih i (hs.2.2 i) _ _ _ (this.1 ho).1 ?_ st G hI⟩
          unfold outOf at ho
          split at ho
          · simp at ho
          · exact ho
        · have h' := this.2 (by rw [ho]; rfl)
          exact ⟨h'.1, fun st G hI => ih i (hs.2.2 i) _ _ _ h'.2 hr st G hI⟩) st G hI
    have hexec : execBody X.outs (.mk id ms kind n subs) root o st =
        assemble kind out o (fun i => (subs i).markers) (fun i => (al i).1) ts st1 := by
      rw [execBody]
      dsimp only
      rw [hout, Option.bind_some, Plan.allSome_eq (y := al) hal, Option.bind_some, e1, Option.bind_some]
    unfold BodyRes
    rw [hexec]
    -- the operands as plans
    choose ps hps using fun i => tree_op (hQ i).isOp
    have hops : operands ts = some ps := Plan.allSome_eq fun i => by rw [hps i]; rfl
    have hpg : ∀ i, X.PlanGood st1.loaded G1 (ps i) (kidMode X.e kind n i m) (X.ar (subs i)) (PermRows (al i).2 (X.sem (subs i))) := by
      intro i
      have := (hQ i).tree
      rw [hps i] at this
      exact this
    have hrefs : (fun k => (List.ofFn fun i => (ts i).refs k).sum) = fun k => (List.ofFn fun i => Plan.refs (ps i) k).sum := by
      funext k
      congr 2
      funext i
      rw [hps i]; rfl
    rw [hrefs] at hR1
    have hsem : X.sem (.mk id ms kind n subs) = opSem X.e.env X.tab kind ms (fun i => (subs i).markers) fun i => X.sem (subs i) := rfl
    have hperm : ms.length = opArity X.tabAr kind ms (fun i => (subs i).arity X.tabAr) → o.permute ms = some out := by
      intro hl
      obtain ⟨out', a, b⟩ := orderedMarkers_spec h1 (ms := ms) (by rw [hl]; exact h2)
      rw [hout] at a
      cases a
      exact b
    cases kind with
    | fetch t fo =>
      obtain ⟨k1, k2, k3⟩ := h4
      subst k1
      have hm : Moves o (X.tabAr t) := h2
      have hch : Built (fo.chain o) := .chain k2 h1
      have hchm : Moves (fo.chain o) (X.tabAr t) := Moves.chain k2.wf h1.wf k3 hm
      obtain ⟨a, b, c⟩ := loadTable_spec hI1 (t := t) hch hchm (hs.2.1 t fo rfl)
      refine ⟨.op (.leaf (.load (loadTable st1 t (fo.chain o)).1)), (loadTable st1 t (fo.chain o)).2, G1, rfl, a, (hR1.trans b).le fun k => ?_, ?_, ?_⟩
      · simp [Tree.refs, Plan.refs, Plan.leaves]
      · have := load_good (X := X) (G := G1) c m
        refine PlanGood.congr this fun r => ?_
        rw [hsem]
        exact permRows_chain k2 h1 k3 hm (htab t) r
      · exact ⟨fun _ => rfl, fun _ _ k h => by simp at h, fun h => by simp [Kind.isProject] at h⟩
    | zero =>
      have h4 : n = 0 := h4
      subst h4
      refine ⟨.op .zero, st1, G1, rfl, hI1, hR1.le fun k => ?_, ?_, ?_⟩
      · simp [Tree.refs, Plan.refs, Plan.leaves]
      · exact zero_good h1 h2 m
      · exact ⟨fun _ => rfl, fun _ _ k h => by simp at h, fun h => by simp [Kind.isProject] at h⟩
    | join =>
      obtain ⟨q1, q2, q3, q4⟩ := h4
      refine ⟨_, st1, G1, by rw [assemble, hops]; rfl, hI1, hR1.le fun k => ?_, ?_, ?_⟩
      · show (List.ofFn fun i : Fin (List.ofFn fun i => (al i).1).length => (ps (i.cast List.length_ofFn)).leaves).flatten.count (.computed k) ≤ _
        rw [ofFn_cast List.length_ofFn (fun i => (ps i).leaves), refs_flatten]
      · exact join_good h1 h2 (hperm rfl) q1 q2 q3 q4 (fun i => hal i) hlen hpg
      · exact ⟨fun _ => rfl, fun _ _ k h => by simp at h, fun h => by simp [Kind.isProject] at h⟩
    | union ar =>
      refine ⟨_, st1, G1, by rw [assemble, hops]; rfl, hI1, hR1.le fun k => ?_, ?_, ?_⟩
      · show (List.ofFn fun i => (ps i).leaves).flatten.count (.computed k) ≤ _
        rw [refs_flatten]
      · refine union_good (ms := ms) (kms := fun i => (subs i).markers) h4 (fun i => ?_)
        have ha : al i = ((subs i).markers, o) := (Option.some.inj (hal i)).symm
        have := hpg i
        rw [ha] at this
        exact this
      · exact ⟨fun _ => rfl, fun _ _ k h => by simp at h, fun h => by simp [Kind.isProject] at h⟩
    | subtract =>
      obtain ⟨q1, q2, q3⟩ := h4
      obtain ⟨n, rfl⟩ : ∃ k, n = k + 1 := ⟨n - 1, by omega⟩
      have ha0 : al 0 = ((subs 0).markers, o) := (Option.some.inj (hal 0)).symm
      refine ⟨_, st1, G1, by rw [assemble, hops]; rfl, hI1, hR1.le fun k => ?_, ?_, ?_⟩
      · show ((ps 0).leaves ++ (List.ofFn fun i : Fin (List.ofFn fun i : Fin n => (al i.succ).1).length =>
          (ps (i.cast List.length_ofFn).succ).leaves).flatten).count (.computed k) ≤ _
        rw [List.count_append, ofFn_cast List.length_ofFn (fun i : Fin n => (ps i.succ).leaves), refs_flatten (fun i : Fin n => ps i.succ),
          List.ofFn_succ, List.sum_cons]
        rfl
      · refine subtract_good (kar := fun i => X.ar (subs i)) (os := fun i => (al i).2) (ams := fun i => (al i).1)
          (kms := fun i => (subs i).markers) (ps := ps) h1 h2 (hperm rfl) q2 ?_ (fun i => ?_) (fun i => ?_) ?_ hlen (fun i => ?_)
        · have := q3 0
          rw [if_pos (by rfl)] at this
          exact this
        · have := q3 i.succ
          rw [if_neg (by simp)] at this
          exact this
        · have := hal i.succ
          unfold kidOrder at this
          rw [if_neg (by simp)] at this
          exact this
        · show (al 0).2 = o
          rw [ha0]
        · exact hpg i
      · exact ⟨fun _ => rfl, fun _ _ k h => by simp at h, fun h => by simp [Kind.isProject] at h⟩
    | filter fs =>
      obtain ⟨q1, q2, q3, q4, q5, q6⟩ := h4
      subst q1
      have ha0 : al 0 = ((subs 0).markers, o) := (Option.some.inj (hal 0)).symm
      have hS0 : (fun i => X.sem (subs i)) = fun _ : Fin 1 => X.sem (subs 0) := by
        funext i; rw [Subsingleton.elim i 0]
      refine ⟨_, st1, G1, by rw [assemble, hops]; rfl, hI1, hR1.le fun k => ?_, ?_, ?_⟩
      · rw [sum_one]; exact le_rfl
      · rw [hsem, hS0]
        refine filter_good h1 h2 (hperm rfl) q2 q3 q4 q6 (fun r hr => (hlen 0 r hr).trans (q5 0)) ?_
        have := hpg 0
        rw [ha0, show X.ar (subs 0) = ms.length from q5 0] at this
        exact this
      · exact ⟨fun _ => rfl, fun _ _ k h => by simp at h, fun h => by simp [Kind.isProject] at h⟩
    | function fs =>
      obtain ⟨q1, q2, q3, q4, q5, q6, q7⟩ := h4
      subst q1 q2
      have ha0 : al 0 = ((subs 0).markers, ident) := (Option.some.inj (hal 0)).symm
      have hS0 : (fun i => X.sem (subs i)) = fun _ : Fin 1 => X.sem (subs 0) := by
        funext i; rw [Subsingleton.elim i 0]
      have ho' : out = ms := by
        have := hperm rfl
        rw [ident_permute] at this
        exact (Option.some.inj this).symm
      subst ho'
      refine ⟨_, st1, G1, by rw [assemble, hops]; rfl, hI1, hR1.le fun k => ?_, ?_, ?_⟩
      · rw [sum_one]; exact le_rfl
      · rw [hsem, hS0]
        refine function_good q3 q4 q5 q6 ?_
        have := hpg 0
        rw [ha0, show X.ar (subs 0) = (TFn.inputCols out fs).length from q7 0] at this
        exact this
      · exact ⟨fun _ => rfl, fun _ _ k h => by simp at h, fun h => by simp [Kind.isProject] at h⟩
    | project =>
      obtain ⟨q1, q2, q3, q4⟩ := h4
      subst q1 q2
      have ha0 : al 0 = ((subs 0).markers, ident) := (Option.some.inj (hal 0)).symm
      have hS0 : (fun i => X.sem (subs i)) = fun _ : Fin 1 => X.sem (subs 0) := by
        funext i; rw [Subsingleton.elim i 0]
      have ho' : out = ms := by
        have := hperm rfl
        rw [ident_permute] at this
        exact (Option.some.inj this).symm
      subst ho'
      have hp0 := hpg 0
      rw [ha0, show X.ar (subs 0) = (subs 0).markers.length from (q4 0).2.2.symm] at hp0
      obtain ⟨g, g1, g2, g3⟩ := project_good (X := X) (kms := fun i => (subs i).markers) q3 (q4 0).1 (q4 0).2.1
        (fun r hr => (hlen 0 r hr).trans (q4 0).2.2.symm) hp0 m
      refine ⟨.project g (ps 0), st1, G1, ?_, hI1, hR1.le fun k => ?_, ?_, ?_⟩
      · rw [assemble, hops]
        show ((some ((subs 0).markers)).bind fun km => GenPR.new out km).map (fun g => (Tree.project g (ps 0), st1)) = _
        rw [Option.bind_some, g1]; rfl
      · rw [sum_one]; exact le_rfl
      · rw [hsem, hS0]; exact g3
      · refine ⟨fun h => by simp [Kind.isProject] at h, fun h => by simp [Kind.isProject] at h, fun _ => ⟨0, g, ps 0, rfl, g2, ?_, ?_⟩⟩
        · intro k hk
          cases hoo : outOf X.outs root (subs 0).id with
          | none =>
            exfalso
            refine (hQ 0).notOut hoo ((h5 rfl 0).2 hoo) k ?_
            rw [hps 0, hk]
          | some x =>
            obtain ⟨k', dep, c1, c2⟩ := (hQ 0).out (by rw [hoo]; rfl)
            rw [hps 0, hk] at c1
            cases c1
            rw [ha0] at c2
            exact ⟨x, dep, rfl, (h5 rfl 0).1 x hoo, c2⟩
        · intro hoo
          obtain ⟨k', dep, c1, c2⟩ := (hQ 0).out hoo
          rw [hps 0] at c1
          exact ⟨k', by injection c1⟩
    | rename =>
      have h4 : n = 1 := h4
      subst h4
      have ha0 : al 0 = ((subs 0).markers, o) := (Option.some.inj (hal 0)).symm
      refine ⟨ts 0, st1, G1, rfl, hI1, hR1.le fun k => ?_, ?_, ?_⟩
      · rw [sum_one, hps 0]; exact le_rfl
      · have := (hQ 0).tree
        rw [ha0] at this
        refine TreeGood.congr this fun r => ?_
        constructor
        · rintro ⟨x, hx, e⟩; exact ⟨x, ⟨0, hx⟩, e⟩
        · rintro ⟨x, ⟨i, hx⟩, e⟩
          rw [Subsingleton.elim i 0] at hx
          exact ⟨x, hx, e⟩
      · exact ⟨fun _ => (hQ 0).isOp, fun _ h => by simp [Kind.isRename] at h, fun h => by simp [Kind.isProject] at h⟩

end Ctx
end XPlan
end Verif
