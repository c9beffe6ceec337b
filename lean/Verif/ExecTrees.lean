import Verif.ExecOps

/-!
# Execution plans: trees of output nodes

Proofs about `execution_tree` (`/repo/nemo-physical/src/management/execution_plan.rs:601-702`).
-/

set_option linter.unusedSimpArgs false
set_option linter.unusedSectionVars false
set_option linter.unusedVariables false

namespace Verif
namespace XPlan
open Permut (Built Moves)
variable {α : Type} [SVal α] {M V U B T N : Type} [DecidableEq M] [DecidableEq B]

/-- `x'` is a later version of the tree `x` -/
structure Later (x x' : Entry M V U B T N) : Prop where
  root : x'.root = x.root
  perm : x'.perm = x.perm
  id : x'.id = x.id
  nonEmpty : x'.nonEmpty = x.nonEmpty
  markers : x'.markers = x.markers
  deps : ∀ y ∈ x.deps, y ∈ x'.deps
  roots : ∀ y ∈ x.roots, y ∈ x'.roots

theorem Later.refl (x : Entry M V U B T N) : Later x x := ⟨rfl, rfl, rfl, rfl, rfl, fun _ h => h, fun _ h => h⟩

namespace Ctx
variable {X : Ctx α M V U B T N}

/-- trees remain right when others are added -/
theorem EntryOK.ext {st st' : St M V U B T N} {G G' : List Ghost} {j : Nat} {x x' : Entry M V U B T N} {g : Ghost}
    (h : X.EntryOK st G j x g) (hj : j ≤ G.length) (hl : st.loaded <+: st'.loaded) (hG : G <+: G')
    (ht : ∀ (i : Nat) (y : Entry M V U B T N), st.trees[i]? = some y → ∃ y', st'.trees[i]? = some y' ∧ Later y y') (hx : Later x x')
    (hused : 0 < x'.used ∨ (x'.deps ≠ [] ∧ x'.perm = none))
    (hdeps : ∀ y ∈ x'.deps, y ∈ x.deps ∨ x.root.isOp = true ∧ j < y.1 ∧ ∃ z h g', st'.trees[y.1]? = some z ∧
      z.root = .project h (.leaf (.computed j)) ∧ y.2 = h.choice ∧ G'[y.1]? = some g' ∧ g'.dep = true)
    (hroots : ∀ r ∈ x'.roots, r ∈ x.roots ∨ (findOut X.outs r).isSome) : X.EntryOK st' G' j x' g := by
  obtain ⟨G2, rfl⟩ := hG
  constructor
  · rw [hx.id]; exact h.id
  · obtain ⟨o, a, b, c, d⟩ := h.out
    exact ⟨o, by rw [hx.id]; exact a, by rw [hx.nonEmpty]; exact b, by rw [hx.markers]; exact c, by rw [hx.perm]; exact d⟩
  · exact h.built
  · exact h.moves
  · exact h.len
  · rw [hx.root, List.take_append_of_le_length hj]
    exact h.tree.mono hl (List.prefix_refl _)
  · exact hused
  · intro y hy
    rcases hdeps y hy with hy | ⟨a, b, c⟩
    · obtain ⟨a, b, z, p, g', c1, c2, c3, c4, c5⟩ := h.deps y hy
      obtain ⟨z', d1, d2⟩ := ht _ _ c1
      refine ⟨by rw [hx.root]; exact a, b, z', p, g', d1, by rw [d2.root]; exact c2, c3, ?_, c5⟩
      rw [List.getElem?_append_left (List.getElem?_eq_some_iff.mp c4).1]; exact c4
    · exact ⟨by rw [hx.root]; exact a, b, c⟩
  · intro hd
    obtain ⟨k, z, c, a1, a2, a3⟩ := h.dep hd
    obtain ⟨z', d1, d2⟩ := ht _ _ a2
    exact ⟨k, z', c, a1, d1, d2.deps _ a3⟩
  · intro p q hp hn
    rw [hx.root] at hp
    rcases h.noop p q hp hn with a | a | ⟨l, a, r, b, c⟩
    · exact .inl a
    · exact .inr (.inl (by rw [hx.markers]; exact a))
    · exact .inr (.inr ⟨l, by rw [hx.markers]; exact a, r, hx.roots r b, c⟩)
  · intro r hr
    rcases hroots r hr with a | a
    · exact h.roots r a
    · exact a
  · intro hd
    exact ⟨(h.dnode hd).1, by rw [hx.root]; exact (h.dnode hd).2⟩

end Ctx

theorem modify_later {trees : List (Entry M V U B T N)} {k : Nat} {f : Entry M V U B T N → Entry M V U B T N}
    (hf : ∀ x, Later x (f x)) {i : Nat} {y : Entry M V U B T N} (h : trees[i]? = some y) :
    ∃ y', (trees.modify k f)[i]? = some y' ∧ Later y y' := by
  rw [List.getElem?_modify, h]
  by_cases hi : k = i
  · exact ⟨f y, by simp [hi], hf y⟩
  · exact ⟨y, by simp [hi], Later.refl y⟩

theorem map_root_modify {trees : List (Entry M V U B T N)} {k : Nat} {f : Entry M V U B T N → Entry M V U B T N}
    (hf : ∀ x, (f x).root = x.root) : (trees.modify k f).map (·.root) = trees.map (·.root) := by
  refine List.ext_getElem? fun i => ?_
  rw [List.getElem?_map, List.getElem?_map, List.getElem?_modify]
  cases trees[i]? with
  | none => rfl
  | some x =>
    by_cases hi : k = i
    · simp [hi, hf]
    · simp [hi]

theorem usedAt_modify {trees : List (Entry M V U B T N)} {k : Nat} {f : Entry M V U B T N → Entry M V U B T N}
    (i : Nat) : usedAt (trees.modify k f) i = if k = i then ((trees[i]?.map f).map (·.used)).getD 0 else usedAt trees i := by
  unfold usedAt
  rw [List.getElem?_modify]
  by_cases hi : k = i <;> simp [hi]

theorem usedAt_append (trees : List (Entry M V U B T N)) (x : Entry M V U B T N) (i : Nat) :
    usedAt (trees ++ [x]) i = usedAt trees i + if i = trees.length then x.used else 0 := by
  unfold usedAt
  rcases lt_trichotomy i trees.length with h | h | h
  · rw [List.getElem?_append_left h, if_neg (by omega)]; rfl
  · subst h; simp
  · rw [if_neg (by omega), List.getElem?_eq_none (by simp; omega), List.getElem?_eq_none (by omega)]; rfl

theorem refsOf_mono {G G' : List Ghost} {roots roots' : List (Tree M V U B T N)} (hG : G <+: G') (hr : roots <+: roots')
    (hl : G.length = roots.length) (k : Nat) : refsOf G roots k ≤ refsOf G' roots' k := by
  obtain ⟨g, rfl⟩ := hG
  obtain ⟨r, rfl⟩ := hr
  unfold refsOf
  rw [List.zip_append hl, List.map_append, List.sum_append]
  omega

/-- counters only grow -/
theorem Rel.used_le {st st' : St M V U B T N} {G G' : List Ghost} {h : Nat → Nat} (a : Rel st G h st' G')
    (hl : G.length = st.trees.length) (k : Nat) : usedAt st.trees k + h k ≤ usedAt st'.trees k := by
  have h1 := a.used k
  have h2 := refsOf_mono (k := k) a.ghosts a.roots (by simpa using hl)
  omega

/-- one more use -/
def bumpE (root : Nat) (x : Entry M V U B T N) : Entry M V U B T N := { x with used := x.used + 1, roots := x.roots ++ [root] }
/-- one more dependent -/
def depE (j : Nat) (c : Choice) (u : Nat) (x : Entry M V U B T N) : Entry M V U B T N := { x with deps := x.deps ++ [(j, c)], used := u }

theorem bump_later (root : Nat) (x : Entry M V U B T N) : Later x (bumpE root x) :=
  ⟨rfl, rfl, rfl, rfl, rfl, fun _ h => h, fun _ h => List.mem_append_left _ h⟩
theorem dep_later (j : Nat) (c : Choice) (u : Nat) (x : Entry M V U B T N) : Later x (depE j c u x) :=
  ⟨rfl, rfl, rfl, rfl, rfl, fun _ h => List.mem_append_left _ h, fun _ h => h⟩

namespace Ctx
variable {X : Ctx α M V U B T N}

/-- a tree is used once more -/
theorem inv_use {st : St M V U B T N} {G : List Ghost} (hI : X.Inv st G) (k root : Nat) (hr : (findOut X.outs root).isSome)
    (hk : k < st.trees.length) : X.Inv { st with trees := useTree st.trees k root } G ∧
      Rel st G (fun j => if j = k then 1 else 0) { st with trees := useTree st.trees k root } G := by
  have hlat := bump_later (M := M) (V := V) (U := U) (B := B) (T := T) (N := N) root
  rw [show useTree st.trees k root = st.trees.modify k (bumpE root) from rfl]
  constructor
  · refine ⟨?_, ?_, hI.map, hI.loaded⟩
    · simp only [List.length_modify]; exact hI.len
    · intro j x g hx hg
      have hx : (st.trees.modify k (bumpE root))[j]? = some x := hx
      rw [List.getElem?_modify] at hx
      obtain ⟨y, hy, hxy⟩ := Option.map_eq_some_iff.mp hx
      have he := hI.entry j y g hy hg
      have hj : j ≤ G.length := le_of_lt (List.getElem?_eq_some_iff.mp hg).1
      refine he.ext hj (List.prefix_refl _) (List.prefix_refl _) (fun i z hz => modify_later hlat hz) ?_ ?_ ?_ ?_
      · subst hxy; split
        · exact hlat y
        · exact Later.refl y
      · subst hxy; split
        · exact .inl (Nat.succ_pos _)
        · exact he.used
      · intro z hz
        left
        subst hxy
        split at hz <;> exact hz
      · intro z hz
        subst hxy
        split at hz
        · rcases List.mem_append.mp hz with h | h
          · exact .inl h
          · rw [List.mem_singleton] at h; subst h; exact .inr hr
        · exact .inl hz
  · refine ⟨List.prefix_refl _, List.prefix_refl _, ?_, fun j => ?_⟩
    · show _ <+: (st.trees.modify k (bumpE root)).map (·.root)
      rw [map_root_modify (f := bumpE root) fun _ => rfl]
    · show _ + refsOf _ ((st.trees.modify k (bumpE root)).map (·.root)) _ + _ ≤ usedAt (st.trees.modify k (bumpE root)) _ + _
      rw [map_root_modify (f := bumpE root) (fun _ => rfl), usedAt_modify]
      by_cases hj : k = j
      · subst hj
        rw [if_pos rfl, if_pos rfl, List.getElem?_eq_getElem hk]
        unfold usedAt
        rw [List.getElem?_eq_getElem hk]
        simp only [Option.map_some, Option.getD_some, bumpE]
        omega
      · rw [if_neg (by omega), if_neg hj]; omega

/-- a tree is added -/
theorem inv_push {st : St M V U B T N} {G : List Ghost} (hI : X.Inv st G) {x : Entry M V U B T N} {ord : Permut}
    (hx : ∀ st', st'.loaded = st.loaded → (∃ l, st'.trees = st.trees ++ l) → X.EntryOK st' (G ++ [⟨x.id, ord, false⟩]) G.length x ⟨x.id, ord, false⟩)
    (hu : x.used = 1) :
    X.Inv (pushTree st ord x).2 (G ++ [⟨x.id, ord, false⟩]) ∧ (pushTree st ord x).1 = G.length ∧
      ∀ st0 G0, Rel st0 G0 x.root.refs st G →
        Rel st0 G0 (fun j => if j = G.length then 1 else 0) (pushTree st ord x).2 (G ++ [⟨x.id, ord, false⟩]) := by
  refine ⟨⟨?_, ?_, ?_, hI.loaded⟩, hI.len.symm, ?_⟩
  · simp [pushTree, hI.len]
  · intro j y g hy hg
    have hy' : (st.trees ++ [x])[j]? = some y := hy
    rcases lt_or_ge j G.length with h | h
    · rw [List.getElem?_append_left h] at hg
      rw [List.getElem?_append_left (by rw [← hI.len]; exact h)] at hy'
      have he := hI.entry j y g hy' hg
      refine he.ext h.le (List.prefix_refl _) (List.prefix_append _ _) ?_ (Later.refl y) he.used (fun z hz => .inl hz) (fun z hz => .inl hz)
      intro i z hz
      refine ⟨z, ?_, Later.refl z⟩
      show (st.trees ++ [x])[i]? = some z
      rw [List.getElem?_append_left (List.getElem?_eq_some_iff.mp hz).1]; exact hz
    · have hj : j = G.length := by
        have := (List.getElem?_eq_some_iff.mp hg).1
        simp at this; omega
      subst hj
      rw [List.getElem?_append_right le_rfl] at hg
      rw [hI.len, List.getElem?_append_right le_rfl] at hy'
      simp at hg hy'
      subst hg hy'
      exact hx _ rfl ⟨_, rfl⟩
  · intro id l hl
    have hl' : (hmInsert st.map x.id [(ord, st.trees.length)]).lookup id = some l := hl
    rw [hmInsert_lookup] at hl'
    by_cases hid : id = x.id
    · rw [if_pos hid] at hl'
      cases hl'
      subst hid
      refine ⟨ord, st.trees.length, false, rfl, ?_⟩
      rw [← hI.len]; simp
    · rw [if_neg hid] at hl'
      obtain ⟨o, k, dep, h1, h2⟩ := hI.map id l hl'
      refine ⟨o, k, dep, h1, ?_⟩
      rw [List.getElem?_append_left (List.getElem?_eq_some_iff.mp h2).1]; exact h2
  · intro st0 G0 hR
    refine ⟨hR.loaded, hR.ghosts.trans (List.prefix_append _ _), ?_, fun j => ?_⟩
    · show _ <+: (st.trees ++ [x]).map (·.root)
      rw [List.map_append]
      exact hR.roots.trans (List.prefix_append _ _)
    · show usedAt st0.trees j + refsOf _ ((st.trees ++ [x]).map (·.root)) j + _ ≤ usedAt (st.trees ++ [x]) j + _
      rw [List.map_append, List.map_singleton, refsOf_append (by simp [hI.len]), usedAt_append, hu, hI.len]
      have := hR.used j
      simp only [Bool.false_eq_true, if_false]
      omega

/-- a projection of a temporary table is added -/
theorem inv_push_dep {st : St M V U B T N} {G : List Ghost} (hI : X.Inv st G) {x y : Entry M V U B T N} {ord : Permut} {k : Nat} {p : GenPR}
    (hk : st.trees[k]? = some y) (hop : y.root.isOp = true) (hperm : y.perm = none) (hroot : x.root = .project p (.leaf (.computed k)))
    (hy : 0 < y.used)
    (hx : ∀ st', st'.loaded = st.loaded → (∃ c y', st'.trees[k]? = some y' ∧ (G.length, c) ∈ y'.deps) →
      X.EntryOK st' (G ++ [⟨x.id, ord, true⟩]) G.length x ⟨x.id, ord, true⟩)
    (hu : x.used = 1) :
    ∃ trees, addDependent st.trees (some (k, p.choice)) = some trees ∧
      X.Inv (pushTree { st with trees := trees } ord x).2 (G ++ [⟨x.id, ord, true⟩]) ∧
      (pushTree { st with trees := trees } ord x).1 = G.length ∧
      ∀ st0 G0, Rel st0 G0 x.root.refs st G →
        Rel st0 G0 (fun j => if j = G.length then 1 else 0) (pushTree { st with trees := trees } ord x).2 (G ++ [⟨x.id, ord, true⟩]) := by
  have hkl : k < G.length := by rw [hI.len]; exact (List.getElem?_eq_some_iff.mp hk).1
  have hlat := dep_later (M := M) (V := V) (U := U) (B := B) (T := T) (N := N) st.trees.length p.choice (y.used - 1)
  refine ⟨st.trees.modify k (depE st.trees.length p.choice (y.used - 1)), ?_, ⟨?_, ?_, ?_, hI.loaded⟩, ?_, ?_⟩
  · rw [addDependent, hk, Option.bind_some, usub, if_pos (by omega)]; rfl
  · simp [pushTree, hI.len]
  · intro j z g hz hg
    have hz' : ((st.trees.modify k (depE st.trees.length p.choice (y.used - 1))) ++ [x])[j]? = some z := hz
    rcases lt_or_ge j G.length with h | h
    · rw [List.getElem?_append_left h] at hg
      rw [List.getElem?_append_left (by rw [List.length_modify, ← hI.len]; exact h), List.getElem?_modify] at hz'
      obtain ⟨w, hw, hzw⟩ := Option.map_eq_some_iff.mp hz'
      have he := hI.entry j w g hw hg
      refine he.ext h.le (List.prefix_refl _) (List.prefix_append _ _) ?_ ?_ ?_ ?_ ?_
      · intro i v hv
        obtain ⟨v', a, b⟩ := modify_later (k := k) hlat hv
        refine ⟨v', ?_, b⟩
        show ((st.trees.modify k (depE st.trees.length p.choice (y.used - 1))) ++ [x])[i]? = some v'
        rw [List.getElem?_append_left (List.getElem?_eq_some_iff.mp a).1]; exact a
      · subst hzw; split
        · exact hlat w
        · exact Later.refl w
      · subst hzw; split
        · rename_i hkj
          subst hkj
          rw [hk] at hw; cases hw
          exact .inr ⟨by simp [depE], hperm⟩
        · exact he.used
      · intro v hv
        subst hzw
        split at hv
        · rename_i hkj
          subst hkj
          rw [hk] at hw; cases hw
          rcases List.mem_append.mp hv with hv | hv
          · exact .inl hv
          · rw [List.mem_singleton] at hv
            subst hv
            refine .inr ⟨hop, by rw [← hI.len]; exact hkl, x, p, ⟨x.id, ord, true⟩, ?_, hroot, rfl, ?_, rfl⟩
            · show ((st.trees.modify k (depE st.trees.length p.choice (y.used - 1))) ++ [x])[st.trees.length]? = some x
              rw [List.getElem?_append_right (by simp)]; simp
            · rw [← hI.len]; simp
        · exact .inl hv
      · intro v hv
        subst hzw
        split at hv <;> exact .inl hv
    · have hj : j = G.length := by
        have := (List.getElem?_eq_some_iff.mp hg).1
        simp at this; omega
      subst hj
      rw [List.getElem?_append_right le_rfl] at hg
      rw [hI.len, List.getElem?_append_right (by simp)] at hz'
      simp at hg hz'
      subst hg hz'
      refine hx _ rfl ⟨p.choice, depE st.trees.length p.choice (y.used - 1) y, ?_, ?_⟩
      · show ((st.trees.modify k (depE st.trees.length p.choice (y.used - 1))) ++ [x])[k]? = _
        rw [List.getElem?_append_left (by rw [List.length_modify, ← hI.len]; exact hkl), List.getElem?_modify, hk]; simp
      · rw [hI.len]; simp [depE]
  · intro id l hl
    have hl' : (hmInsert st.map x.id [(ord, (st.trees.modify k (depE st.trees.length p.choice (y.used - 1))).length)]).lookup id = some l := hl
    rw [hmInsert_lookup, List.length_modify] at hl'
    by_cases hid : id = x.id
    · rw [if_pos hid] at hl'
      cases hl'
      subst hid
      refine ⟨ord, st.trees.length, true, rfl, ?_⟩
      rw [← hI.len]; simp
    · rw [if_neg hid] at hl'
      obtain ⟨o, k, dep, h1, h2⟩ := hI.map id l hl'
      refine ⟨o, k, dep, h1, ?_⟩
      rw [List.getElem?_append_left (List.getElem?_eq_some_iff.mp h2).1]; exact h2
  · simp [pushTree, hI.len]
  · intro st0 G0 hR
    refine ⟨hR.loaded, hR.ghosts.trans (List.prefix_append _ _), ?_, fun j => ?_⟩
    · show _ <+: ((st.trees.modify k (depE st.trees.length p.choice (y.used - 1))) ++ [x]).map (·.root)
      rw [List.map_append, map_root_modify (f := depE _ _ _) fun _ => rfl]
      exact hR.roots.trans (List.prefix_append _ _)
    · show usedAt st0.trees j + refsOf _ (((st.trees.modify k (depE st.trees.length p.choice (y.used - 1))) ++ [x]).map (·.root)) j + _ ≤
        usedAt ((st.trees.modify k (depE st.trees.length p.choice (y.used - 1))) ++ [x]) j + _
      rw [List.map_append, map_root_modify (f := depE _ _ _) (fun _ => rfl), List.map_singleton, refsOf_append (by simp [hI.len]), usedAt_append, usedAt_modify, hu, hI.len,
        List.length_modify]
      have h1 := hR.used j
      rw [hroot] at h1
      simp only [if_true]
      have h2 : (Tree.project p (Plan.leaf (Leaf.computed k)) : Tree M V U B T N).refs j = if j = k then 1 else 0 := by
        simp only [Tree.refs, Plan.refs, Plan.leaves, List.count_singleton]
        by_cases hjk : j = k
        · subst hjk; simp
        · rw [if_neg hjk, if_neg (by simp; exact fun h => hjk h.symm)]
      rw [h2] at h1
      by_cases hj : k = j
      · subst hj
        rw [if_pos rfl] at h1 ⊢
        have h3 : usedAt st.trees k = y.used := by rw [usedAt, hk]; rfl
        rw [h3] at h1
        rw [hk]
        simp only [Option.map_some, Option.getD_some, depE]
        omega
      · rw [if_neg (by omega)] at h1
        rw [if_neg hj]
        omega

/-- the shape of the tree of a node -/
def Shape (X : Ctx α M V U B T N) (root : Nat) (G : List Ghost) (t : Tree M V U B T N) : Node M V U B T N → Prop
  | .mk id ms kind n subs =>
    (kind.isProject = false → t.isOp = true) ∧
    (kind.isProject = false → kind.isRename = false → ∀ k, t ≠ .op (.leaf (.computed k))) ∧
    (kind.isProject = true → ∃ i g p, t = .project g p ∧ (g.isNoop = true → ms = (subs i).markers) ∧
      (∀ k, p = .leaf (.computed k) → ∃ x dep, outOf X.outs root (subs i).id = some x ∧ (x.perm = none → X.D (subs i).id) ∧
        G[k]? = some ⟨(subs i).id, ident, dep⟩) ∧
      ((outOf X.outs root (subs i).id).isSome → ∃ k, p = .leaf (.computed k)))

/-- the tree of a node is made -/
def BodyRes (X : Ctx α M V U B T N) (nd : Node M V U B T N) (root : Nat) (o : Permut) (m : Mode) (st : St M V U B T N) (G : List Ghost) : Prop :=
  ∃ t st' G', execBody X.outs nd root o st = some (t, st') ∧ X.Inv st' G' ∧ Rel st G t.refs st' G' ∧
    X.TreeGood st'.loaded G' t m (X.ar nd) (PermRows o (X.sem nd)) ∧ X.Shape root G' t nd

theorem resultFor_ident (o : Out M V U B T N) : resultFor o ident = o.perm := rfl

theorem execTree_finish {r : Nat × St M V U B T N} {st : St M V U B T N} {G G' : List Ghost} {k : Nat} {g : Ghost}
    (a : X.Inv r.2 G') (b : r.1 = k) (c : Rel st G (fun j => if j = k then 1 else 0) r.2 G') (d : G'[k]? = some g) :
    ∃ k st' G' dep, some r = some (k, st') ∧ X.Inv st' G' ∧ Rel st G (fun j => if j = k then 1 else 0) st' G' ∧
      G'[k]? = some ⟨g.id, g.ord, dep⟩ := by
  subst b
  exact ⟨r.1, r.2, G', g.dep, rfl, a, c, d⟩

/-- The tree of an output node. -/
theorem execTree_spec {nd : Node M V U B T N} {x : Out M V U B T N} (hx : findOut X.outs nd.id = some x) (hxn : x.node = nd)
    (hnd : X.nd nd.id = nd) (hsub : ∀ y, findOut X.outs y.node.id = some y → X.nd y.node.id = y.node)
    (hlen : ∀ r, X.sem nd r → r.length = X.ar nd)
    {root : Nat} {o : Permut} (ho : Built o) (hm : Moves o (X.ar nd)) (hO : OutOK X.tabAr X.outs X.D root nd o)
    (hr : (findOut X.outs root).isSome) {st : St M V U B T N} {G : List Ghost} (hI : X.Inv st G)
    (hbody : X.BodyRes nd nd.id o ⟨false, false⟩ st G) :
    ∃ k st' G' dep, execTree x (execBody X.outs nd) root o st = some (k, st') ∧ X.Inv st' G' ∧
      Rel st G (fun j => if j = k then 1 else 0) st' G' ∧ G'[k]? = some ⟨nd.id, o, dep⟩ := by
  have hid : x.node.id = nd.id := by rw [hxn]
  unfold execTree
  cases hmap : st.map.lookup x.node.id with
  | some l =>
    rw [hid] at hmap
    obtain ⟨oc, k, dep, rfl, hk⟩ := hI.map _ _ hmap
    have hkl : k < st.trees.length := by rw [← hI.len]; exact (List.getElem?_eq_some_iff.mp hk).1
    have he := hI.entry k _ _ (List.getElem?_eq_getElem hkl) hk
    have hb := he.built
    have hmv := he.moves
    dsimp only at hb hmv
    rw [hnd] at hmv
    obtain ⟨u1, u2⟩ := inv_use hI k root hr hkl
    have hc : closestOrder [(oc, k)] o = some (oc, k) := rfl
    dsimp only
    rw [hc, Option.map_some, reuseTree]
    dsimp only
    by_cases hn : (GenPR.fromReordering oc o x.node.markers.length).isNoop = true
    · rw [if_pos hn]
      have hoc : oc = o := by
        by_cases hD : X.D nd.id
        · have h1 := (he.dnode hD).1
          have h2 := (hO.1 hD).1
          dsimp only at h1
          rw [h1, h2]
        · have h1 := hO.2.1 hD
          rw [hxn] at hn
          have h2 : nd.markers.length = X.ar nd := h1
          rw [h2] at hn
          exact fromReordering_noop hb.wf ho.wf hmv hm hn
      subst hoc
      exact ⟨k, _, G, dep, rfl, u1, u2, hk⟩
    · rw [if_neg hn]
      have hD : ¬ X.D nd.id := by
        intro hD
        have h1 := (he.dnode hD).1
        have h2 := (hO.1 hD).1
        dsimp only at h1
        rw [h1, h2] at hn
        exact hn (reorder_ident_noop _)
      have hml : nd.markers.length = X.ar nd := hO.2.1 hD
      have hpos : 0 < X.ar nd := by
        by_contra h
        rw [hxn, hml, show X.ar nd = 0 by omega] at hn
        exact hn (reorder_zero_noop _ _)
      have hg : PlanGood X st.loaded G (.leaf (.computed k)) ⟨false, false⟩ (X.ar nd) (PermRows oc (X.sem nd)) := by
        have := computed_good (X := X) (L := st.loaded) hk ⟨false, false⟩
        rw [hnd] at this
        exact this
      have key := inv_push (X := X) u1 (ord := o) (x := ⟨.project (GenPR.fromReordering oc o x.node.markers.length) (.leaf (.computed k)),
        resultFor x o, x.node.id, 1, [], x.nonEmpty, x.node.markers, [root]⟩) ?_ rfl
      · obtain ⟨a, b, c⟩ := key
        have hrel := c st G (u2.le fun j => ?_)
        · rw [← hid]; exact execTree_finish a b hrel (List.getElem?_concat_length ..)
        · simp only [Tree.refs, Plan.refs, Plan.leaves, List.count_singleton]
          by_cases hjk : j = k
          · subst hjk; simp
          · rw [if_neg hjk, if_neg (by simp; exact fun h => hjk h.symm)]
      · intro st' hl' _
        have hl' : st'.loaded = st.loaded := hl'
        constructor
        · rfl
        · exact ⟨x, by rw [hid]; exact hx, rfl, rfl, rfl⟩
        · exact ho
        · show Moves o (X.ar (X.nd x.node.id)); rw [hid, hnd]; exact hm
        · intro r; show X.sem (X.nd x.node.id) r → _; rw [hid, hnd]; exact hlen r
        · show X.TreeGood st'.loaded _ _ _ (X.ar (X.nd x.node.id)) (PermRows o (X.sem (X.nd x.node.id)))
          rw [hid, hnd, hl', List.take_append_of_le_length le_rfl, List.take_length, hxn, hml]
          refine ⟨X.ar nd, _, hg, rfl, fromReordering_length hb.wf _, ?_, reorder_vec_lt hb ho hmv hm, ?_, ?_, ?_⟩
          · intro i hi
            have := reorder_vec_lt hb ho hmv hm i hi
            simp only [GenPR.fromReordering]
            omega
          · intro _; simp only [GenPR.fromReordering]; omega
          · intro h; rw [hxn, hml] at hn; exact absurd h hn
          · intro r
            exact (reorder_rows hb ho hmv hm hlen r).symm
        · exact .inl Nat.one_pos
        · intro y hy; simp at hy
        · intro h; simp at h
        · intro p q hp hno
          cases hp
          exact absurd hno hn
        · intro r hrr
          simp at hrr
          subst hrr; exact hr
        · intro h
          rw [hid] at h
          exact absurd h hD
  | none =>
    dsimp only
    obtain ⟨t, st1, G1, e1, hI1, hR1, hT1, hS1⟩ := hbody
    rw [hid, e1, Option.bind_some]
    dsimp only
    unfold newTree
    have hent : ∀ (dep : Bool) (st' : St M V U B T N) , st'.loaded = st1.loaded →
        (dep = true → ∃ k y' c, k < G1.length ∧ st'.trees[k]? = some y' ∧ (G1.length, c) ∈ y'.deps) →
        (dep = false → ∀ i, ¬ ∃ g k, t = .project g (.leaf (.computed k)) ∧ G1[k]? = some i ∧ ∃ y, findOut X.outs i.id = some y ∧ resultFor y i.ord = none) →
        X.EntryOK st' (G1 ++ [⟨x.node.id, o, dep⟩]) G1.length
          ⟨t, resultFor x o, x.node.id, 1, [], x.nonEmpty, x.node.markers, [root]⟩ ⟨x.node.id, o, dep⟩ := by
      intro dep st' hl' hdep hnodep
      constructor
      · rfl
      · exact ⟨x, by rw [hid]; exact hx, rfl, rfl, rfl⟩
      · exact ho
      · show Moves o (X.ar (X.nd x.node.id)); rw [hid, hnd]; exact hm
      · intro r; show X.sem (X.nd x.node.id) r → _; rw [hid, hnd]; exact hlen r
      · show X.TreeGood st'.loaded _ _ _ (X.ar (X.nd x.node.id)) (PermRows o (X.sem (X.nd x.node.id)))
        rw [hid, hnd, hl', List.take_append_of_le_length le_rfl, List.take_length]
        exact hT1
      · exact .inl Nat.one_pos
      · intro y hy; simp at hy
      · exact hdep
      · intro p q hp hno
        cases dep with
        | true => exact .inl rfl
        | false =>
          right
          show x.node.markers = [] ∨ ∃ l, x.node.markers.getLast? = some l ∧ ∃ r ∈ [root], _
          rw [hxn]
          obtain ⟨ndi, ms, kind, n, subs⟩ := nd
          have hp : t = .project p q := hp
          have hpr : kind.isProject = true := by
            by_contra h
            have := hS1.1 (by simpa using h)
            rw [hp] at this
            simp [Tree.isOp] at this
          obtain ⟨i, g, p', e, h1, h2, h3⟩ := hS1.2.2 hpr
          rw [hp] at e
          cases e
          rcases hO.2.2 hpr i (h1 hno) with h | ⟨y, hy, hyp⟩ | h
          · exact .inl h
          · exfalso
            obtain ⟨k, rfl⟩ := h3 (by show (outOf X.outs ndi (subs i).id).isSome = true; rw [hy]; rfl)
            obtain ⟨y', d, a1, a2, a3⟩ := h2 k rfl
            have a1 : outOf X.outs ndi (subs i).id = some y' := a1
            rw [hy] at a1
            cases a1
            refine hnodep rfl _ ⟨p, k, hp, a3, y, ?_, ?_⟩
            · unfold outOf at hy
              split at hy
              · simp at hy
              · exact hy
            · exact hyp
          · right
            obtain ⟨l, b1, r, b2, b3⟩ := h
            exact ⟨l, b1, root, by simp, r, b2, b3⟩
      · intro r hrr
        simp at hrr
        subst hrr; exact hr
      · intro h
        have h : X.D x.node.id := h
        rw [hid] at h
        refine ⟨(hO.1 h).1, ?_⟩
        obtain ⟨ndi, ms, kind, n, subs⟩ := nd
        exact hS1.1 (hO.1 h).2
    -- is it a dependent?
    cases hd : dependsOn st1.trees t with
    | none =>
      simp only [addDependent, Option.map_some]
      obtain ⟨a, b, c⟩ := inv_push (X := X) hI1 (ord := o) (x := ⟨t, resultFor x o, x.node.id, 1, [], x.nonEmpty, x.node.markers, [root]⟩)
        (fun st' h1 _ => hent false st' h1 (by simp) (fun _ i => by
          rintro ⟨g, k, rfl, hk, y, hy, hyp⟩
          have hkl : k < st1.trees.length := by rw [← hI1.len]; exact (List.getElem?_eq_some_iff.mp hk).1
          obtain ⟨y', c1, -, -, c2⟩ := (hI1.entry k _ _ (List.getElem?_eq_getElem hkl) hk).out
          rw [(hI1.entry k _ _ (List.getElem?_eq_getElem hkl) hk).id, hy] at c1
          cases c1
          rw [hyp] at c2
          simp [dependsOn, List.getElem?_eq_getElem hkl, c2] at hd)) rfl
      have hrel := c st G hR1
      rw [← hid]; exact execTree_finish a b hrel (List.getElem?_concat_length ..)
    | some kc =>
      obtain ⟨k, c⟩ := kc
      obtain ⟨g, hg, hc, hp⟩ : ∃ g, t = .project g (.leaf (.computed k)) ∧ c = g.choice ∧ (st1.trees[k]?.map (·.perm)) = some none := by
        unfold dependsOn at hd
        split at hd
        · split at hd
          · cases hd; exact ⟨_, rfl, rfl, by assumption⟩
          · simp at hd
        · simp at hd
      subst hg hc
      obtain ⟨y, hy, hyp⟩ := Option.map_eq_some_iff.mp hp
      have hkl : k < G1.length := by rw [hI1.len]; exact (List.getElem?_eq_some_iff.mp hy).1
      have hek := hI1.entry k y _ hy (List.getElem?_eq_getElem hkl)
      have hop : y.root.isOp = true := by
        obtain ⟨ndi, ms, kind, n, subs⟩ := nd
        have hpr : kind.isProject = true := by
          by_contra h
          have := hS1.1 (by simpa using h)
          simp [Tree.isOp] at this
        obtain ⟨i, g', p', e, h1, h2, h3⟩ := hS1.2.2 hpr
        cases e
        obtain ⟨y', d, a1, a2, a3⟩ := h2 k rfl
        rw [List.getElem?_eq_getElem hkl] at a3
        have a3 := Option.some.inj a3
        have hy' : findOut X.outs (subs i).id = some y' := by
          unfold outOf at a1
          split at a1
          · simp at a1
          · exact a1
        obtain ⟨y'', c1, -, -, c2⟩ := hek.out
        rw [hek.id, a3, hy'] at c1
        cases c1
        rw [hyp, a3] at c2
        have hD := a2 c2.symm
        refine (hek.dnode ?_).2
        rw [a3]; exact hD
      have hy0 : 0 < y.used := by
        have := hR1.used_le hI.len k
        have h2 : (Tree.project g (Plan.leaf (Leaf.computed k)) : Tree M V U B T N).refs k = 1 := by
          simp [Tree.refs, Plan.refs, Plan.leaves]
        rw [h2, show usedAt st1.trees k = y.used by rw [usedAt, hy]; rfl] at this
        omega
      obtain ⟨trees, b0, a, b, c⟩ := inv_push_dep (X := X) hI1 (ord := o)
        (x := ⟨.project g (.leaf (.computed k)), resultFor x o, x.node.id, 1, [], x.nonEmpty, x.node.markers, [root]⟩) hy hop hyp rfl hy0
        (fun st' h1 h2 => hent true st' h1 (fun _ => by
          obtain ⟨c, y', e1, e2⟩ := h2
          exact ⟨k, y', c, hkl, e1, e2⟩) (by simp)) rfl
      have hrel := c st G hR1
      rw [b0, Option.map_some]
      rw [← hid]; exact execTree_finish a b hrel (List.getElem?_concat_length ..)

end Ctx
end XPlan
end Verif
