import Verif.ExecOrders

/-!
# Execution plans: the series of trees

The invariant of `finalize` (`/repo/nemo-physical/src/management/execution_plan.rs:1046-1098`).
-/

set_option linter.unusedSimpArgs false
set_option linter.unusedSectionVars false
set_option linter.unusedVariables false

namespace Verif
namespace XPlan
open Permut (Built Moves)
variable {α : Type} [SVal α] {M V U B T N : Type} [DecidableEq M] [DecidableEq B]

/-- everything a plan depends on -/
structure Ctx (α : Type) [SVal α] (M V U B T N : Type) where
  e : PEnv α V U B T N
  outs : List (Out M V U B T N)
  tabAr : Nat → Nat
  tab : Nat → List α → Prop
  D : Nat → Prop
  known : Nat → Prop
  nd : Nat → Node M V U B T N

/-- what a tree is for: the node, the order, and whether it is computed together with another one -/
structure Ghost where
  id : Nat
  ord : Permut
  dep : Bool

namespace Ctx
variable (X : Ctx α M V U B T N)

/-- the rows of a node -/
def sem (n : Node M V U B T N) : List α → Prop := n.Sem X.e.env X.tab
/-- the columns of a node -/
def ar (n : Node M V U B T N) : Nat := n.arity X.tabAr

/-- the contents of the tables that are read -/
def Agree (L : List (Nat × Permut)) (G : List Ghost) (ars : Leaf → Nat) (tb : Leaf → List α → Prop) : Prop :=
  (∀ i t o, L[i]? = some (t, o) → ars (.load i) = X.tabAr t ∧ tb (.load i) = PermRows o (X.tab t)) ∧
  ∀ k g, G[k]? = some g → ars (.computed k) = X.ar (X.nd g.id) ∧ tb (.computed k) = PermRows g.ord (X.sem (X.nd g.id))

/-- a leaf that exists -/
def InRange (L : List (Nat × Permut)) (G : List Ghost) : Leaf → Prop
  | .load i => i < L.length
  | .computed k => k < G.length

/-- the plan computes the rows -/
def PlanGood (L : List (Nat × Permut)) (G : List Ghost) (p : Plan M V U B T N) (m : Mode) (n : Nat) (rows : List α → Prop) : Prop :=
  (∀ l ∈ p.leaves, InRange L G l) ∧ ∀ ars tb, X.Agree L G ars tb →
    p.OK X.e ars m ∧ p.arity ars = n ∧ ∀ r, p.Sem X.e.env tb r ↔ rows r

/-- the tree computes the rows -/
def TreeGood (L : List (Nat × Permut)) (G : List Ghost) (t : Tree M V U B T N) (m : Mode) (n : Nat) (rows : List α → Prop) : Prop :=
  match t with
  | .op p => X.PlanGood L G p m n rows
  | .project g p => ∃ k S, X.PlanGood L G p ⟨false, false⟩ k S ∧ g.arityOut = n ∧ g.choice.asVector.length = n ∧
      (∀ i ∈ g.choice.asVector, i ≤ g.lastUsed) ∧ (∀ i ∈ g.choice.asVector, i < k) ∧
      (g.isNoop = false → g.lastUsed < k) ∧ (g.isNoop = true → n = k ∧ ∀ r, rows r ↔ S r) ∧
      ∀ r, rows r ↔ ProjRows g.choice.asVector S r

variable {X}

theorem Agree.mono {L L' : List (Nat × Permut)} {G G' : List Ghost} (hL : L <+: L') (hG : G <+: G') {ars tb}
    (h : X.Agree L' G' ars tb) : X.Agree L G ars tb := by
  obtain ⟨l, rfl⟩ := hL
  obtain ⟨g, rfl⟩ := hG
  refine ⟨fun i t o hi => h.1 i t o ?_, fun k x hk => h.2 k x ?_⟩
  · rw [List.getElem?_append_left (List.getElem?_eq_some_iff.mp hi).1]; exact hi
  · rw [List.getElem?_append_left (List.getElem?_eq_some_iff.mp hk).1]; exact hk

theorem PlanGood.mono {L L' : List (Nat × Permut)} {G G' : List Ghost} (hL : L <+: L') (hG : G <+: G') {p : Plan M V U B T N}
    {m n rows} (h : X.PlanGood L G p m n rows) : X.PlanGood L' G' p m n rows := by
  refine ⟨fun l hl => ?_, fun ars tb ha => h.2 ars tb (ha.mono hL hG)⟩
  have := h.1 l hl
  cases l with
  | load i => exact lt_of_lt_of_le this hL.length_le
  | computed i => exact lt_of_lt_of_le this hG.length_le

theorem PlanGood.congr {L : List (Nat × Permut)} {G : List Ghost} {p : Plan M V U B T N}
    {m n} {rows rows' : List α → Prop} (h : X.PlanGood L G p m n rows) (he : ∀ r, rows r ↔ rows' r) : X.PlanGood L G p m n rows' :=
  ⟨h.1, fun ars tb ha => ⟨(h.2 ars tb ha).1, (h.2 ars tb ha).2.1, fun r => by rw [(h.2 ars tb ha).2.2, he]⟩⟩

theorem TreeGood.mono {L L' : List (Nat × Permut)} {G G' : List Ghost} (hL : L <+: L') (hG : G <+: G') {t : Tree M V U B T N}
    {m n rows} (h : X.TreeGood L G t m n rows) : X.TreeGood L' G' t m n rows := by
  cases t with
  | op p => exact PlanGood.mono hL hG h
  | project g p =>
    obtain ⟨k, S, h1, h2⟩ := h
    exact ⟨k, S, h1.mono hL hG, h2⟩

theorem TreeGood.congr {L : List (Nat × Permut)} {G : List Ghost} {t : Tree M V U B T N}
    {m n} {rows rows' : List α → Prop} (h : X.TreeGood L G t m n rows) (he : ∀ r, rows r ↔ rows' r) : X.TreeGood L G t m n rows' := by
  cases t with
  | op p => exact PlanGood.congr h he
  | project g p =>
    obtain ⟨k, S, h1, h2, h3, h4, h5, h6, h7, h8⟩ := h
    exact ⟨k, S, h1, h2, h3, h4, h5, h6, fun hn => ⟨(h7 hn).1, fun r => by rw [← he, (h7 hn).2]⟩, fun r => by rw [← he, h8]⟩

end Ctx

/-! ### Counting references -/

/-- how often the result of tree `k` is read -/
def Plan.refs (p : Plan M V U B T N) (k : Nat) : Nat := p.leaves.count (.computed k)

/-- how often the result of tree `k` is read -/
def Tree.refs : Tree M V U B T N → Nat → Nat
  | .op p, k => Plan.refs p k
  | .project _ p, k => Plan.refs p k

/-- how often the result of tree `k` is read by trees that are computed on their own -/
def refsOf (G : List Ghost) (roots : List (Tree M V U B T N)) (k : Nat) : Nat :=
  ((G.zip roots).map fun y => if y.1.dep then 0 else y.2.refs k).sum

theorem refsOf_append {G : List Ghost} {roots : List (Tree M V U B T N)} (h : G.length = roots.length) (g : Ghost)
    (t : Tree M V U B T N) (k : Nat) :
    refsOf (G ++ [g]) (roots ++ [t]) k = refsOf G roots k + if g.dep then 0 else t.refs k := by
  unfold refsOf
  rw [List.zip_append h, List.map_append, List.sum_append]
  simp

/-- the counter of a tree -/
def usedAt (trees : List (Entry M V U B T N)) (k : Nat) : Nat := (trees[k]?.map (·.used)).getD 0

/-- operations -/
def Tree.isOp : Tree M V U B T N → Bool | .op _ => true | .project _ _ => false

namespace Ctx
variable (X : Ctx α M V U B T N)

/-- what holds of each tree -/
structure EntryOK (st : St M V U B T N) (G : List Ghost) (j : Nat) (x : Entry M V U B T N) (g : Ghost) : Prop where
  id : x.id = g.id
  out : ∃ o, findOut X.outs x.id = some o ∧ x.nonEmpty = o.nonEmpty ∧ x.markers = o.node.markers ∧ x.perm = resultFor o g.ord
  built : Built g.ord
  moves : Moves g.ord (X.ar (X.nd g.id))
  len : ∀ r, X.sem (X.nd g.id) r → r.length = X.ar (X.nd g.id)
  tree : X.TreeGood st.loaded (G.take j) x.root ⟨false, false⟩ (X.ar (X.nd g.id)) (PermRows g.ord (X.sem (X.nd g.id)))
  used : 0 < x.used ∨ (x.deps ≠ [] ∧ x.perm = none)
  deps : ∀ y ∈ x.deps, x.root.isOp = true ∧ j < y.1 ∧ ∃ x' h g', st.trees[y.1]? = some x' ∧ x'.root = .project h (.leaf (.computed j)) ∧
    y.2 = h.choice ∧ G[y.1]? = some g' ∧ g'.dep = true
  dep : g.dep = true → ∃ k x' c, k < j ∧ st.trees[k]? = some x' ∧ (j, c) ∈ x'.deps
  noop : ∀ h p, x.root = .project h p → h.isNoop = true → g.dep = true ∨ x.markers = [] ∨
    ∃ l, x.markers.getLast? = some l ∧ ∃ r ∈ x.roots, ∃ o, findOut X.outs r = some o ∧ l ∈ o.node.markers
  roots : ∀ r ∈ x.roots, (findOut X.outs r).isSome
  dnode : X.D g.id → g.ord = ident ∧ x.root.isOp = true

/-- what holds while the trees are collected -/
structure Inv (st : St M V U B T N) (G : List Ghost) : Prop where
  len : G.length = st.trees.length
  entry : ∀ j x g, st.trees[j]? = some x → G[j]? = some g → X.EntryOK st G j x g
  map : ∀ id l, st.map.lookup id = some l → ∃ o k dep, l = [(o, k)] ∧ G[k]? = some ⟨id, o, dep⟩
  loaded : ∀ x ∈ st.loaded, Built x.2 ∧ Moves x.2 (X.tabAr x.1) ∧ X.known x.1

end Ctx

/-- one state comes after another; `h` are the references that are made but not yet part of a tree -/
structure Rel (st : St M V U B T N) (G : List Ghost) (h : Nat → Nat) (st' : St M V U B T N) (G' : List Ghost) : Prop where
  loaded : st.loaded <+: st'.loaded
  ghosts : G <+: G'
  roots : st.trees.map (·.root) <+: st'.trees.map (·.root)
  used : ∀ k, usedAt st.trees k + refsOf G' (st'.trees.map (·.root)) k + h k ≤
    usedAt st'.trees k + refsOf G (st.trees.map (·.root)) k

theorem Rel.refl (st : St M V U B T N) (G : List Ghost) : Rel st G (fun _ => 0) st G :=
  ⟨List.prefix_refl _, List.prefix_refl _, List.prefix_refl _, fun k => by omega⟩

theorem Rel.trans {st st' st'' : St M V U B T N} {G G' G'' : List Ghost} {h h' : Nat → Nat} (a : Rel st G h st' G')
    (b : Rel st' G' h' st'' G'') : Rel st G (fun k => h k + h' k) st'' G'' :=
  ⟨a.loaded.trans b.loaded, a.ghosts.trans b.ghosts, a.roots.trans b.roots, fun k => by have := a.used k; have := b.used k; omega⟩

theorem Rel.le {st st' : St M V U B T N} {G G' : List Ghost} {h h' : Nat → Nat} (a : Rel st G h st' G')
    (hh : ∀ k, h' k ≤ h k) : Rel st G h' st' G' :=
  ⟨a.loaded, a.ghosts, a.roots, fun k => by have := a.used k; have := hh k; omega⟩

/-! ### Loops over operands -/

theorem mapSt_spec {X : Ctx α M V U B T N} : ∀ (n : Nat) {f : Fin n → St M V U B T N → Option (Tree M V U B T N × St M V U B T N)}
    {Q : Fin n → List (Nat × Permut) → List Ghost → Tree M V U B T N → Prop}
    (hQ : ∀ i L L' G G' t, L <+: L' → G <+: G' → Q i L G t → Q i L' G' t)
    (hf : ∀ i st G, X.Inv st G → ∃ t st' G', f i st = some (t, st') ∧ X.Inv st' G' ∧ Rel st G t.refs st' G' ∧ Q i st'.loaded G' t)
    (st : St M V U B T N) (G : List Ghost), X.Inv st G →
    ∃ ts st' G', mapSt n f st = some (ts, st') ∧ X.Inv st' G' ∧
      Rel st G (fun k => (List.ofFn fun i => (ts i).refs k).sum) st' G' ∧ ∀ i, Q i st'.loaded G' (ts i)
  | 0, f, Q, hQ, hf, st, G, hI => ⟨Fin.elim0, st, G, rfl, hI, (Rel.refl st G).le fun k => by simp, fun i => i.elim0⟩
  | n + 1, f, Q, hQ, hf, st, G, hI => by
      obtain ⟨t, st1, G1, h1, h2, h3, h4⟩ := hf 0 st G hI
      obtain ⟨ts, st2, G2, g1, g2, g3, g4⟩ := mapSt_spec n (f := fun i => f i.succ) (Q := fun i => Q i.succ)
        (fun i => hQ i.succ) (fun i => hf i.succ) st1 G1 h2
      refine ⟨Fin.cons t ts, st2, G2, ?_, g2, (h3.trans g3).le fun k => ?_, ?_⟩
      · rw [mapSt, h1, Option.bind_some, g1]; rfl
      · rw [List.ofFn_succ, List.sum_cons]; simp
      · intro i
        refine Fin.cases ?_ (fun i => ?_) i
        · exact hQ 0 _ _ _ _ _ g3.loaded g3.ghosts h4
        · exact g4 i

end XPlan
end Verif
