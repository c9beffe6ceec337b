import Verif.ExecBody

/-!
# Execution plans: running the trees

Proofs about `execute_tree` and `execute_plan` (`/repo/nemo-physical/src/management/database.rs:469-541`, `575-673`).
-/

set_option linter.unusedSimpArgs false
set_option linter.unusedSectionVars false
set_option linter.unusedVariables false

namespace Verif
namespace XPlan
open Permut (Built Moves)
variable {α : Type} [SVal α] {M V U B T N : Type} [DecidableEq M] [DecidableEq B]

namespace Ctx
variable {X : Ctx α M V U B T N}

/-- the rows of the table a tree is for -/
def rowsOf (X : Ctx α M V U B T N) (g : Ghost) : List α → Prop := PermRows g.ord (X.sem (X.nd g.id))

/-- all requirements on the plan -/
structure PlanOK (X : Ctx α M V U B T N) : Prop where
  ids : (X.outs.map fun o => o.node.id).Nodup
  sub : ∀ o ∈ X.outs, SubOK X.known X.nd o.node
  tab : ∀ t r, X.tab t r → r.length = X.tabAr t
  fits : ∀ o ∈ X.outs, o.perm.isSome → Fits X.e X.tabAr X.outs X.D o.node o.node.id ident ⟨false, false⟩ ∧
    OutOK X.tabAr X.outs X.D o.node.id o.node ident

theorem findOut_mem {outs : List (Out M V U B T N)} (h : (outs.map fun o => o.node.id).Nodup) {o : Out M V U B T N} (ho : o ∈ outs) :
    findOut outs o.node.id = some o := by
  unfold findOut
  induction outs with
  | nil => simp at ho
  | cons a l ih =>
    rw [List.map_cons, List.nodup_cons] at h
    rcases List.mem_cons.mp ho with rfl | ho
    · simp
    · rw [List.find?_cons_of_neg, ih h.2 ho]
      simp only [beq_iff_eq]
      intro hc
      exact h.1 (List.mem_map.mpr ⟨o, ho, hc.symm⟩)

theorem PlanOK.outsOK (h : X.PlanOK) : X.OutsOK := by
  intro id y hy
  have hm := List.mem_of_find?_eq_some hy
  have := List.find?_some hy
  exact ⟨by simpa using this, h.sub y hm⟩

theorem Rel.zero {st st' : St M V U B T N} {G G' : List Ghost} {h : Nat → Nat} (a : Rel st G h st' G') : Rel st G (fun _ => 0) st' G' :=
  a.le fun _ => Nat.zero_le _

theorem collect_spec [Nonempty α] (h : X.PlanOK) : ∀ (l : List (Out M V U B T N)), (∀ o ∈ l, o ∈ X.outs) → ∀ st G, X.Inv st G →
    ∃ st' G', collectTrees X.outs l st = some st' ∧ X.Inv st' G' ∧ Rel st G (fun _ => 0) st' G' ∧
      ∀ o ∈ l, o.perm.isSome → ∃ (k : Nat) (dep : Bool), G'[k]? = some ⟨o.node.id, ident, dep⟩
  | [], _, st, G, hI => ⟨st, G, rfl, hI, Rel.refl st G, by simp⟩
  | o :: l, hl, st, G, hI => by
      rw [collectTrees]
      by_cases hp : o.perm.isSome = true
      · rw [if_pos hp]
        have ho := hl o List.mem_cons_self
        obtain ⟨hF, hO⟩ := h.fits o ho hp
        have hfo := findOut_mem h.ids ho
        have hbm : Built ident ∧ Moves ident (X.ar o.node) := ⟨ident_built, ident_moves _⟩
        obtain ⟨k, st1, G1, dep, e1, hI1, hR1, hk⟩ := execTree_spec hfo rfl (subOK_nd (h.sub o ho))
          (fun y hy => subOK_nd (h.outsOK _ _ hy).2) (fits_length h.tab _ _ _ _ hF) hbm.1 hbm.2 hO (by rw [hfo]; rfl) hI
          (body_spec h.tab h.outsOK o.node (h.sub o ho) _ _ _ hF (by rw [hfo]; rfl) st G hI)
        obtain ⟨st2, G2, e2, hI2, hR2, hk2⟩ := collect_spec h l (fun o ho => hl o (List.mem_cons_of_mem _ ho)) st1 G1 hI1
        refine ⟨st2, G2, by rw [e1]; exact e2, hI2, (hR1.trans hR2).le fun _ => Nat.zero_le _, fun y hy hyp => ?_⟩
        rcases List.mem_cons.mp hy with rfl | hy
        · obtain ⟨g, rfl⟩ := hR2.ghosts
          exact ⟨k, dep, by rw [List.getElem?_append_left (List.getElem?_eq_some_iff.mp hk).1]; exact hk⟩
        · exact hk2 y hy hyp
      · rw [if_neg hp]
        obtain ⟨st2, G2, e2, hI2, hR2, hk2⟩ := collect_spec h l (fun o ho => hl o (List.mem_cons_of_mem _ ho)) st G hI
        refine ⟨st2, G2, e2, hI2, hR2, fun y hy hyp => ?_⟩
        rcases List.mem_cons.mp hy with rfl | hy
        · exact absurd hyp hp
        · exact hk2 y hy hyp

theorem inv_init : X.Inv ⟨[], [], []⟩ [] := by
  refine ⟨rfl, fun j x g hx => ?_, fun id l hl => ?_, fun x hx => ?_⟩
  · simp at hx
  · simp at hl
  · simp at hx

/-! ### Evaluating operations -/

/-- the tables a plan reads -/
def ars (X : Ctx α M V U B T N) (L : List (Nat × Permut)) (G : List Ghost) : Leaf → Nat
  | .load i => (L[i]?.map fun x => X.tabAr x.1).getD 0
  | .computed k => (G[k]?.map fun g => X.ar (X.nd g.id)).getD 0

/-- the tables a plan reads -/
def tbs (X : Ctx α M V U B T N) (L : List (Nat × Permut)) (G : List Ghost) : Leaf → List α → Prop
  | .load i => (L[i]?.map fun x => PermRows x.2 (X.tab x.1)).getD fun _ => False
  | .computed k => (G[k]?.map fun g => X.rowsOf g).getD fun _ => False

theorem agree_self (X : Ctx α M V U B T N) (L : List (Nat × Permut)) (G : List Ghost) : X.Agree L G (X.ars L G) (X.tbs L G) := by
  refine ⟨fun i t o h => ?_, fun k g h => ?_⟩
  · simp [ars, tbs, h]
  · simp [ars, tbs, h, rowsOf]

/-- the tables of the database are loaded -/
def LoadedOK (X : Ctx α M V U B T N) (L : List (Nat × Permut)) (loaded : List (Trie α)) : Prop :=
  ∀ (i t : Nat) (o : Permut), L[i]? = some (t, o) → ∃ T, loaded[i]? = some T ∧ Plan.TableOK T (X.tabAr t) (PermRows o (X.tab t))

theorem evalOp_spec [Nonempty α] (he : Plan.EnvOK X.e) {L : List (Nat × Permut)} {G : List Ghost} {i : Nat} {loaded : List (Trie α)} (hL : X.LoadedOK L loaded)
    {comps : Comps α} {p : Plan M V U B T N} {m : Mode} {n : Nat} {rows : List α → Prop} (hp : X.PlanGood L (G.take i) p m n rows)
    (hc : ∀ (k : Nat) (g : Ghost), Leaf.computed k ∈ p.leaves → G[k]? = some g →
      ∃ t, comps[k]? = some (some t) ∧ Plan.TableOK t (X.ar (X.nd g.id)) (X.rowsOf g)) :
    ∃ x, evalOp X.e loaded comps p = some x ∧ Tab m x n rows := by
  obtain ⟨h1, h2, h3⟩ := hp.2 _ _ (agree_self X L (G.take i))
  have hin : ∀ k, Leaf.computed k ∈ p.leaves → ∃ g : Ghost, G[k]? = some g ∧ (G.take i)[k]? = some g := by
    intro k hk
    have := hp.1 _ hk
    have hlt : k < (G.take i).length := this
    have hlt2 := hlt
    rw [List.length_take] at hlt2
    refine ⟨G[k]'(by omega), List.getElem?_eq_getElem (by omega), ?_⟩
    rw [List.getElem?_eq_getElem hlt, List.getElem_take]
  have hinl : ∀ k, Leaf.load k ∈ p.leaves → ∃ x : Nat × Permut, L[k]? = some x := by
    intro k hk
    have : k < L.length := hp.1 _ hk
    exact ⟨_, List.getElem?_eq_getElem this⟩
  have hready : p.leaves.all (ready loaded comps) = true := by
    rw [List.all_eq_true]
    intro l hl
    cases l with
    | load k =>
      obtain ⟨⟨t, o⟩, hx⟩ := hinl k hl
      obtain ⟨T, hT, -⟩ := hL k t o hx
      simp [ready, (List.getElem?_eq_some_iff.mp hT).1]
    | computed k =>
      obtain ⟨g, hg, -⟩ := hin k hl
      obtain ⟨t, ht, -⟩ := hc k g hl hg
      simp [ready, List.getD_eq_getElem?_getD, ht]
  have htab : ∀ l ∈ p.leaves, Plan.TableOK (leafTable loaded comps l) (X.ars L (G.take i) l) (X.tbs L (G.take i) l) := by
    intro l hl
    cases l with
    | load k =>
      obtain ⟨⟨t, o⟩, hx⟩ := hinl k hl
      obtain ⟨T, hT, hT2⟩ := hL k t o hx
      simp only [leafTable, ars, tbs, hx, Option.map_some, Option.getD_some, List.getD_eq_getElem?_getD, hT]
      exact hT2
    | computed k =>
      obtain ⟨g, hg, hg'⟩ := hin k hl
      obtain ⟨t, ht, ht2⟩ := hc k g hl hg
      simp only [leafTable, ars, tbs, hg', Option.map_some, Option.getD_some, List.getD_eq_getElem?_getD, ht]
      exact ht2
  obtain ⟨x, e1, e2⟩ := Plan.eval_table he p m htab h1
  refine ⟨x, by rw [evalOp, if_pos hready, e1], ?_⟩
  rw [h2] at e2
  exact e2.congr h3

/-! ### The loop over the trees -/

/-- what holds before tree `i` is executed -/
structure RunInv (X : Ctx α M V U B T N) (trees : List (Entry M V U B T N)) (G : List Ghost) (i : Nat) (comps : Comps α) : Prop where
  len : comps.length = trees.length
  done : ∀ k < i, k < trees.length → ∃ t, comps[k]? = some (some t)
  right : ∀ (k : Nat) t x g, comps[k]? = some (some t) → trees[k]? = some x → G[k]? = some g → 0 < x.used →
    Plan.TableOK t (X.ar (X.nd g.id)) (X.rowsOf g)
  later : ∀ (k : Nat) t g, i ≤ k → comps[k]? = some (some t) → G[k]? = some g → g.dep = true
  deps : ∀ j < i, ∀ x, trees[j]? = some x → ∀ y ∈ x.deps, ∃ t, comps[y.1]? = some (some t)

theorem refsOf_ge {G : List Ghost} {roots : List (Tree M V U B T N)} {i : Nat} {g : Ghost} {t : Tree M V U B T N} (hg : G[i]? = some g)
    (hd : g.dep = false) (ht : roots[i]? = some t) (k : Nat) : t.refs k ≤ refsOf G roots k := by
  unfold refsOf
  have hsum : ∀ (l : List Nat) (a : Nat), a ∈ l → a ≤ l.sum := by
    intro l a h
    induction l with
    | nil => simp at h
    | cons b l ih =>
      rw [List.sum_cons]
      rcases List.mem_cons.mp h with rfl | h
      · omega
      · have := ih h; omega
  refine hsum _ _ (List.mem_map.mpr ⟨(g, t), ?_, by simp [hd]⟩)
  refine List.mem_of_getElem? (i := i) ?_
  rw [List.getElem?_zip_eq_some]
  exact ⟨hg, ht⟩

/-- the last columns are not cut off -/
theorem cutLayer_zero {ms rs : List M} (h : ms = [] ∨ ∃ l, ms.getLast? = some l ∧ l ∈ rs) : cutLayer ms rs = 0 := by
  rcases h with rfl | ⟨l, h1, h2⟩
  · rfl
  · unfold cutLayer
    rw [List.getLast?_eq_head?_reverse] at h1
    cases hr : ms.reverse with
    | nil => rfl
    | cons a r =>
      rw [hr] at h1
      simp only [List.head?_cons, Option.some.injEq] at h1
      subst h1
      rw [List.takeWhile_cons_of_neg (by simpa using h2)]
      rfl

theorem rootMarkers_spec {outs : List (Out M V U B T N)} : ∀ {roots : List Nat}, (∀ r ∈ roots, (findOut outs r).isSome) →
    ∃ l, rootMarkers outs roots = some l ∧ ∀ r ∈ roots, ∀ o, findOut outs r = some o → ∀ m ∈ o.node.markers, m ∈ l := by
  intro roots h
  unfold rootMarkers
  have : ∃ ll, (roots.mapM fun r => (findOut outs r).map fun o => o.node.markers) = some ll ∧
      ∀ r ∈ roots, ∀ o, findOut outs r = some o → o.node.markers ∈ ll := by
    induction roots with
    | nil => exact ⟨[], rfl, by simp⟩
    | cons r rs ih =>
      obtain ⟨ll, e1, e2⟩ := ih fun r hr => h r (List.mem_cons_of_mem _ hr)
      obtain ⟨o, ho⟩ := Option.isSome_iff_exists.mp (h r List.mem_cons_self)
      refine ⟨o.node.markers :: ll, ?_, ?_⟩
      · rw [List.mapM_cons, ho, e1]; rfl
      · intro r' hr' o' ho'
        rcases List.mem_cons.mp hr' with rfl | hr'
        · rw [ho] at ho'; cases ho'; exact List.mem_cons_self
        · exact List.mem_cons_of_mem _ (e2 r' hr' o' ho')
  obtain ⟨ll, e1, e2⟩ := this
  refine ⟨ll.flatten, by rw [e1]; rfl, fun r hr o ho m hm => List.mem_flatten.mpr ⟨_, e2 r hr o ho, hm⟩⟩

theorem empty_ok (n : Nat) {k : Nat} {rows : List α → Prop} (h : ∀ r, ¬ rows r) : Plan.TableOK (Trie.empty n) k rows :=
  .inr (.inr ⟨Trie.numRows_empty n, h⟩)

theorem projRows_empty {vec : List Nat} {n : Nat} {rows : List α → Prop} (hv : ∀ i ∈ vec, i < n) (hl : ∀ r, rows r → r.length = n) :
    (∀ r, ¬ ProjRows vec rows r) ↔ ∀ r, ¬ rows r := by
  constructor
  · intro h r hr
    have : ∃ l : List α, vec.map (fun i => r[i]?) = l.map some := by
      have hn := hl r hr
      clear h
      induction vec with
      | nil => exact ⟨[], rfl⟩
      | cons a v ih =>
        obtain ⟨l, e⟩ := ih fun i hi => hv i (List.mem_cons_of_mem _ hi)
        have ha : a < r.length := by rw [hn]; exact hv a List.mem_cons_self
        exact ⟨r[a] :: l, by rw [List.map_cons, e, List.getElem?_eq_getElem ha]; rfl⟩
    obtain ⟨l, e⟩ := this
    exact h l ⟨r, hr, e⟩
  · rintro h r ⟨x, hx, -⟩
    exact h x hx

/-- Executing one tree. -/
theorem step_spec [Nonempty α] (he : Plan.EnvOK X.e) {st : St M V U B T N} {G : List Ghost} (hI : X.Inv st G)
    (hu : ∀ k, refsOf G (st.trees.map (·.root)) k ≤ usedAt st.trees k) {loaded : List (Trie α)} (hL : X.LoadedOK st.loaded loaded)
    {i : Nat} {comps : Comps α} (hR : X.RunInv st.trees G i comps) {x : Entry M V U B T N} {g : Ghost} (hx : st.trees[i]? = some x)
    (hg : G[i]? = some g) (hc : comps[i]? = some none) (d : α) :
    ∃ cut r, cutOf X.outs x = some cut ∧ executeTree X.e loaded comps x.root (x.deps.map (·.2)) x.used cut d = some r ∧
      (0 < x.used → Plan.TableOK r.1 (X.ar (X.nd g.id)) (X.rowsOf g)) ∧
      List.Forall₂ (fun (y : Nat × Choice) t => ∃ g', G[y.1]? = some g' ∧ Plan.TableOK t (X.ar (X.nd g'.id)) (X.rowsOf g')) x.deps r.2 ∧
      (resultEmpty r.1 (r.2.take x.deps.length) = true ↔ ∀ r, ¬ X.sem (X.nd g.id) r) := by
  have hE := hI.entry i x g hx hg
  have hil : i < st.trees.length := (List.getElem?_eq_some_iff.mp hx).1
  -- the tree is not a dependent
  have hdep : g.dep = false := by
    by_contra h
    obtain ⟨k, x', c, k1, k2, k3⟩ := hE.dep (by simpa using h)
    obtain ⟨t, ht⟩ := hR.deps k k1 x' k2 _ k3
    rw [hc] at ht
    simp at ht
  -- the tables it reads exist
  have hread : ∀ (p : Plan M V U B T N), (∀ k, x.root.refs k = Plan.refs p k) → (∀ l ∈ p.leaves, InRange st.loaded (G.take i) l) →
      ∀ (k : Nat) (g' : Ghost), Leaf.computed k ∈ p.leaves → G[k]? = some g' →
        ∃ t, comps[k]? = some (some t) ∧ Plan.TableOK t (X.ar (X.nd g'.id)) (X.rowsOf g') := by
    intro p hp hin k g' hk hg'
    have hki : k < (G.take i).length := hin _ hk
    rw [List.length_take] at hki
    have hkl : k < st.trees.length := by rw [← hI.len]; omega
    obtain ⟨t, ht⟩ := hR.done k (by omega) hkl
    refine ⟨t, ht, hR.right k t _ g' ht (List.getElem?_eq_getElem hkl) hg' ?_⟩
    have h1 : 0 < x.root.refs k := by rw [hp]; exact List.count_pos_iff.mpr hk
    have h2 := refsOf_ge (roots := st.trees.map (·.root)) hg hdep (by rw [List.getElem?_map, hx]; rfl) k
    have h2 : x.root.refs k ≤ refsOf G (st.trees.map (·.root)) k := h2
    have h3 := hu k
    have h4 : usedAt st.trees k = (st.trees[k]).used := by rw [usedAt, List.getElem?_eq_getElem hkl]; rfl
    omega
  obtain ⟨ll, r1, r2⟩ := rootMarkers_spec hE.roots
  have hempty : (∀ r, ¬ X.rowsOf g r) ↔ ∀ r, ¬ X.sem (X.nd g.id) r := permRows_empty hE.built hE.moves hE.len
  have hrl : ∀ r, X.rowsOf g r → r.length = X.ar (X.nd g.id) := fun r hr => permRows_length hE.built hE.moves hE.len hr
  have htree := hE.tree
  refine ⟨cutLayer x.markers ll, ?_⟩
  have hcut : cutOf X.outs x = some (cutLayer x.markers ll) := by rw [cutOf, r1]; rfl
  cases hroot : x.root with
  | op p =>
    rw [hroot] at htree hread
    have hpg : X.PlanGood st.loaded (G.take i) p ⟨false, false⟩ _ (X.rowsOf g) := htree
    obtain ⟨y, e1, e2⟩ := evalOp_spec he hL hpg (hread p (fun _ => rfl) hpg.1)
    -- the dependents
    have hd : ∀ y ∈ x.deps, ∃ g', G[y.1]? = some g' ∧ (∀ j ∈ y.2.asVector, j < X.ar (X.nd g.id)) ∧ y.2.asVector.length = X.ar (X.nd g'.id) ∧
        ∀ r, ProjRows y.2.asVector (X.rowsOf g) r ↔ X.rowsOf g' r := by
      intro z hz
      obtain ⟨a1, a2, x', h', g', a3, a4, a5, a6, a7⟩ := hE.deps z hz
      have hE' := hI.entry z.1 x' g' a3 a6
      have ht' := hE'.tree
      rw [a4] at ht'
      obtain ⟨k, S, b1, b2, b3, b4, b5, b6, b7, b8⟩ := ht'
      have hgi : (G.take z.1)[i]? = some g := by
        rw [List.getElem?_take_of_lt a2]; exact hg
      obtain ⟨-, c1, c2⟩ := b1.2 _ _ (agree_self X st.loaded (G.take z.1))
      have hk : k = X.ar (X.nd g.id) := by
        rw [← c1]
        simp [Plan.arity, ars, hgi]
      have hS : ∀ r, S r ↔ X.rowsOf g r := by
        intro r
        rw [← c2 r]
        simp [Plan.Sem, tbs, hgi]
      refine ⟨g', a6, ?_, ?_, fun r => ?_⟩
      · rw [a5, ← hk]; exact b5
      · rw [a5]; exact b3
      · show _ ↔ PermRows g'.ord _ r
        rw [b8 r, a5]
        unfold ProjRows
        simp only [hS]
    have hmain : ∃ r, storeOp y (x.deps.map (·.2)) x.used d = some r ∧ (0 < x.used → Plan.TableOK r.1 (X.ar (X.nd g.id)) (X.rowsOf g)) ∧
        ((∀ r, ¬ X.rowsOf g r) → r.1.numRows = 0) ∧
        List.Forall₂ (fun (c : Choice) t' => Plan.TableOK t' c.asVector.length (ProjRows c.asVector (X.rowsOf g))) (x.deps.map (·.2)) r.2 := by
      cases y with
      | none =>
        have e2 : ∀ r, ¬ X.rowsOf g r := e2
        refine ⟨_, rfl, fun _ => empty_ok 0 e2, fun _ => Trie.numRows_empty 0, ?_⟩
        generalize x.deps.map (·.2) = cs
        induction cs with
        | nil => exact .nil
        | cons c cs ih =>
          refine .cons (empty_ok 0 ?_) ih
          rintro r ⟨z, hz, -⟩
          exact e2 z hz
      | some s =>
        obtain ⟨t, ts, m1, m2, m3, m4⟩ := materializeDeps_tables e2 (x.deps.map (·.2)) (by
          intro c hc
          obtain ⟨z, hz, rfl⟩ := List.mem_map.mp hc
          obtain ⟨g', -, h, -⟩ := hd z hz
          exact h) (decide (0 < x.used)) d
        exact ⟨(t, ts), m1, fun h => m2 (by simpa using h), m3, m4⟩
    obtain ⟨r, s1, s2, s3, s4⟩ := hmain
    rw [List.forall₂_map_left_iff] at s4
    have s5 : List.Forall₂ (fun (y : Nat × Choice) t => ∃ g', G[y.1]? = some g' ∧ Plan.TableOK t (X.ar (X.nd g'.id)) (X.rowsOf g') ∧
        (t.numRows = 0 ↔ ∀ r, ¬ X.rowsOf g r)) x.deps r.2 := by
      have : ∀ (l : List (Nat × Choice)) ts, (∀ y ∈ l, y ∈ x.deps) →
          List.Forall₂ (fun (c : Nat × Choice) t' => Plan.TableOK t' c.2.asVector.length (ProjRows c.2.asVector (X.rowsOf g))) l ts →
          List.Forall₂ (fun (y : Nat × Choice) t => ∃ g', G[y.1]? = some g' ∧ Plan.TableOK t (X.ar (X.nd g'.id)) (X.rowsOf g') ∧
            (t.numRows = 0 ↔ ∀ r, ¬ X.rowsOf g r)) l ts := by
        intro l ts hl hf
        induction hf with
        | nil => exact .nil
        | @cons c t' l ts h1 h2 ih =>
          refine .cons ?_ (ih fun y hy => hl y (List.mem_cons_of_mem _ hy))
          obtain ⟨g', k1, k2, k3, k4⟩ := hd c (hl c List.mem_cons_self)
          refine ⟨g', k1, ?_, ?_⟩
          · have := h1.congr k4
            rw [k3] at this
            exact this
          · rw [h1.empty_iff, projRows_empty k2 hrl]
      exact this _ _ (fun y hy => hy) s4
    refine ⟨r, hcut, ?_, s2, s5.imp fun y t ⟨g', a, b, c⟩ => ⟨g', a, b⟩, ?_⟩
    · rw [executeTree, e1, Option.bind_some, s1]
    · rw [← hempty, s5.length_eq, List.take_length, resultEmpty, Bool.and_eq_true, beq_iff_eq, List.all_eq_true]
      constructor
      · rintro ⟨t1, t2⟩
        rcases hE.used with hpos | ⟨hne, -⟩
        · exact (s2 hpos).empty_iff.mp t1
        · cases hdp : x.deps with
          | nil => exact absurd hdp hne
          | cons y l =>
            rw [hdp] at s5
            cases h2 : r.2 with
            | nil => rw [h2] at s5; cases s5
            | cons t ts =>
              rw [h2] at s5 t2
              obtain ⟨g', -, -, hiff⟩ := (List.forall₂_cons.mp s5).1
              exact hiff.mp (by simpa using t2 t List.mem_cons_self)
      · intro hno
        refine ⟨s3 hno, ?_⟩
        intro t ht
        have : ∀ (l : List (Nat × Choice)) (ts : List (Trie α)), List.Forall₂ (fun (y : Nat × Choice) t => ∃ g', G[y.1]? = some g' ∧
            Plan.TableOK t (X.ar (X.nd g'.id)) (X.rowsOf g') ∧ (t.numRows = 0 ↔ ∀ r, ¬ X.rowsOf g r)) l ts → t ∈ ts → t.numRows = 0 := by
          intro l ts hf
          induction hf with
          | nil => intro h; simp at h
          | cons h1 _ ih =>
            intro h
            rcases List.mem_cons.mp h with rfl | h
            · obtain ⟨-, -, -, hiff⟩ := h1
              exact hiff.mpr hno
            · exact ih h
        simpa using this _ _ s5 ht
  | project p q =>
    rw [hroot] at htree hread
    obtain ⟨k, S, b1, b2, b3, b4, b5, b6, b7, b8⟩ := htree
    obtain ⟨y, e1, e2⟩ := evalOp_spec he hL b1 (hread q (fun _ => rfl) b1.1)
    have hnd : x.deps = [] := by
      by_contra h
      obtain ⟨y, hy⟩ := List.exists_mem_of_ne_nil _ h
      have := (hE.deps y hy).1
      rw [hroot] at this
      simp [Tree.isOp] at this
    have hmain : ∃ t, storeProject p y (cutLayer x.markers ll) d = some t ∧ Plan.TableOK t (X.ar (X.nd g.id)) (X.rowsOf g) := by
      cases y with
      | none =>
        have e2 : ∀ r, ¬ S r := e2
        refine ⟨_, rfl, empty_ok _ fun r hr => ?_⟩
        obtain ⟨z, hz, -⟩ := (b8 r).mp hr
        exact e2 z hz
      | some s =>
        by_cases hn : p.isNoop = true
        · have hz : cutLayer x.markers ll = 0 := by
            refine cutLayer_zero ?_
            rcases hE.noop p q hroot hn with h | h | ⟨l, h1, r, h2, o, h3, h4⟩
            · rw [hdep] at h; simp at h
            · exact .inl h
            · exact .inr ⟨l, h1, r2 r h2 o h3 l h4⟩
          obtain ⟨t, t1, t2⟩ := materialize_tableOK e2 d
          refine ⟨t, ?_, ?_⟩
          · unfold storeProject
            simp only []
            rw [if_pos hn, hz]; exact t1
          · rw [(b7 hn).1]
            exact t2.congr fun r => ((b7 hn).2 r).symm
        · obtain ⟨t, t1, t2⟩ := apply_tableOK e2 (g := p) (b6 (by simpa using hn)) b4 (by rw [b3, b2]) d
          refine ⟨t, ?_, ?_⟩
          · unfold storeProject
            simp only []
            rw [if_neg hn]; exact t1
          · rw [b2] at t2
            exact t2.congr fun r => (b8 r).symm
    obtain ⟨t, t1, t2⟩ := hmain
    refine ⟨(t, []), hcut, ?_, fun _ => t2, ?_, ?_⟩
    · rw [executeTree, e1, Option.bind_some, t1]; rfl
    · rw [hnd]; exact .nil
    · rw [← hempty]
      simp only [resultEmpty, List.take_nil, List.all_nil, Bool.and_true, beq_iff_eq]
      exact t2.empty_iff

theorem storeDeps_length : ∀ (ds : List (Nat × Choice)) (ts : List (Trie α)) (comps : Comps α), (storeDeps ds ts comps).length = comps.length
  | [], ts, comps => by simp [storeDeps]
  | (j, c) :: ds, [], comps => by simp [storeDeps]
  | (j, c) :: ds, t :: ts, comps => by rw [storeDeps, storeDeps_length, List.length_set]

theorem storeDeps_spec {P : Nat → Trie α → Prop} : ∀ {ds : List (Nat × Choice)} {ts : List (Trie α)} (comps : Comps α),
    List.Forall₂ (fun (y : Nat × Choice) t => P y.1 t) ds ts → (∀ y ∈ ds, y.1 < comps.length) →
    (∀ k t, (storeDeps ds ts comps)[k]? = some (some t) → comps[k]? = some (some t) ∨ (P k t ∧ ∃ y ∈ ds, y.1 = k)) ∧
    (∀ (k : Nat), (∃ t, comps[k]? = some (some t)) → ∃ t, (storeDeps ds ts comps)[k]? = some (some t)) ∧
    ∀ y ∈ ds, ∃ t, (storeDeps ds ts comps)[y.1]? = some (some t) := by
  intro ds
  induction ds with
  | nil =>
    intro ts comps hf _
    cases hf
    exact ⟨fun k t h => .inl h, fun k h => h, by simp⟩
  | cons y ds ih =>
    intro ts comps hf hlt
    obtain ⟨j, c⟩ := y
    cases hf with
    | @cons _ t _ ts h1 h2 =>
      rw [storeDeps]
      have hj : j < comps.length := hlt _ List.mem_cons_self
      obtain ⟨i1, i2, i3⟩ := ih (comps.set j (some t)) h2 (fun y hy => by rw [List.length_set]; exact hlt y (List.mem_cons_of_mem _ hy))
      refine ⟨fun k t' h => ?_, fun k h => ?_, fun y hy => ?_⟩
      · rcases i1 k t' h with h | ⟨h, y, hy, e⟩
        · by_cases hk : j = k
          · subst hk
            rw [List.getElem?_set_self hj] at h
            simp only [Option.some.injEq] at h
            subst h
            exact .inr ⟨h1, _, List.mem_cons_self, rfl⟩
          · rw [List.getElem?_set_ne hk] at h
            exact .inl h
        · exact .inr ⟨h, y, List.mem_cons_of_mem _ hy, e⟩
      · refine i2 k ?_
        by_cases hk : j = k
        · subst hk; exact ⟨t, List.getElem?_set_self hj⟩
        · rw [List.getElem?_set_ne hk]; exact h
      · rcases List.mem_cons.mp hy with rfl | hy
        · exact i2 _ ⟨t, List.getElem?_set_self hj⟩
        · exact i3 y hy

/-- Running all trees. -/
theorem run_spec [Nonempty α] (he : Plan.EnvOK X.e) {st : St M V U B T N} {G : List Ghost} (hI : X.Inv st G)
    (hu : ∀ k, refsOf G (st.trees.map (·.root)) k ≤ usedAt st.trees k) {loaded : List (Trie α)} (hL : X.LoadedOK st.loaded loaded) (d : α) :
    ∀ (rest pre : List (Entry M V U B T N)) (comps : Comps α), st.trees = pre ++ rest → X.RunInv st.trees G pre.length comps →
      ∃ r, runTrees X.e X.outs loaded d rest pre.length comps = some r ∧
        match r with
        | none => ∃ o ∈ X.outs, o.nonEmpty = true ∧ ∀ r, ¬ X.sem (X.nd o.node.id) r
        | some comps' => X.RunInv st.trees G st.trees.length comps' := by
  intro rest
  induction rest with
  | nil =>
    intro pre comps hp hR
    rw [List.append_nil] at hp
    refine ⟨_, rfl, ?_⟩
    dsimp only
    rw [hp] at hR ⊢
    exact hR
  | cons x rest ih =>
    intro pre comps hp hR
    have hx : st.trees[pre.length]? = some x := by rw [hp]; simp
    have hlt : pre.length < st.trees.length := (List.getElem?_eq_some_iff.mp hx).1
    have hg : G[pre.length]? = some (G[pre.length]'(by rw [hI.len]; exact hlt)) := List.getElem?_eq_getElem _
    have hE := hI.entry _ _ _ hx hg
    have hcl : pre.length < comps.length := by rw [hR.len]; exact hlt
    rw [runTrees]
    cases hc : comps[pre.length] with
    | some t =>
      have hc' : comps[pre.length]? = some (some t) := by rw [List.getElem?_eq_getElem hcl, hc]
      rw [if_pos (by simp [List.getD_eq_getElem?_getD, hc'])]
      have := ih (pre ++ [x]) comps (by rw [hp]; simp) ?_
      · rw [List.length_append, List.length_singleton] at this; exact this
      · rw [List.length_append, List.length_singleton]
        refine ⟨hR.len, fun k hk hkl => ?_, hR.right, fun k t g hk => hR.later k t g (by omega), fun j hj y hy z hz => ?_⟩
        · by_cases h : k < pre.length
          · exact hR.done k h hkl
          · rw [show k = pre.length by omega]; exact ⟨t, hc'⟩
        · by_cases h : j < pre.length
          · exact hR.deps j h y hy z hz
          · exfalso
            have hj' : j = pre.length := by omega
            subst hj'
            rw [hx] at hy
            cases hy
            -- a tree that is computed already is a projection, which has no dependents
            have hop := (hE.deps z hz).1
            obtain ⟨k, x', c, k1, k2, k3⟩ := hE.dep (hR.later _ t _ le_rfl hc' hg)
            have hkl : k < G.length := by rw [hI.len]; exact (List.getElem?_eq_some_iff.mp k2).1
            obtain ⟨-, -, x'', h', g', a3, a4, -⟩ := (hI.entry k x' _ k2 (List.getElem?_eq_getElem hkl)).deps _ k3
            rw [hx] at a3
            cases a3
            rw [a4] at hop
            simp [Tree.isOp] at hop
    | none =>
      have hc' : comps[pre.length]? = some none := by rw [List.getElem?_eq_getElem hcl, hc]
      rw [if_neg (by simp [List.getD_eq_getElem?_getD, hc'])]
      obtain ⟨cut, r, c1, c2, c3, c4, c5⟩ := step_spec he hI hu hL hR hx hg hc' d
      rw [c1, Option.bind_some, c2, Option.bind_some]
      by_cases hstop : (resultEmpty r.1 (r.2.take x.deps.length) && x.nonEmpty) = true
      · rw [if_pos hstop]
        refine ⟨none, rfl, ?_⟩
        rw [Bool.and_eq_true] at hstop
        obtain ⟨o, o1, o2, -⟩ := hE.out
        have hm := List.mem_of_find?_eq_some o1
        have hid : o.node.id = x.id := by simpa using List.find?_some o1
        refine ⟨o, hm, by rw [← o2]; exact hstop.2, ?_⟩
        rw [hid, hE.id]
        exact c5.mp hstop.1
      · rw [if_neg hstop]
        have hdl : ∀ y ∈ x.deps, y.1 < (comps.set pre.length (some r.1)).length := by
          intro y hy
          obtain ⟨-, -, x', h', g', a3, -⟩ := hE.deps y hy
          rw [List.length_set, hR.len]
          exact (List.getElem?_eq_some_iff.mp a3).1
        obtain ⟨s1, s2, s3⟩ := storeDeps_spec (P := fun k t => ∃ g' : Ghost, G[k]? = some g' ∧ Plan.TableOK t (X.ar (X.nd g'.id)) (X.rowsOf g'))
          (comps.set pre.length (some r.1)) c4 hdl
        have hset : ∀ k : Nat, (∃ t, comps[k]? = some (some t)) → ∃ t, (comps.set pre.length (some r.1))[k]? = some (some t) := by
          rintro k ⟨t, ht⟩
          by_cases hk : pre.length = k
          · subst hk; exact ⟨r.1, List.getElem?_set_self hcl⟩
          · exact ⟨t, by rw [List.getElem?_set_ne hk]; exact ht⟩
        have := ih (pre ++ [x]) (storeDeps x.deps r.2 (comps.set pre.length (some r.1))) (by rw [hp]; simp) ?_
        · rw [List.length_append, List.length_singleton] at this; exact this
        · rw [List.length_append, List.length_singleton]
          refine ⟨by rw [storeDeps_length, List.length_set]; exact hR.len, fun k hk hkl => ?_, fun k t y g' ht hy hg' hpos => ?_,
            fun k t g' hk ht hg' => ?_, fun j hj y hy z hz => ?_⟩
          · refine s2 k ?_
            by_cases h : k < pre.length
            · exact hset k (hR.done k h hkl)
            · rw [show k = pre.length by omega]; exact ⟨r.1, List.getElem?_set_self hcl⟩
          · rcases s1 k t ht with h | ⟨⟨g'', h1, h2⟩, -⟩
            · by_cases hk : pre.length = k
              · subst hk
                rw [List.getElem?_set_self hcl] at h
                simp only [Option.some.injEq] at h
                subst h
                rw [hx] at hy
                cases hy
                rw [hg] at hg'
                cases hg'
                exact c3 hpos
              · rw [List.getElem?_set_ne hk] at h
                exact hR.right k t y g' h hy hg' hpos
            · rw [hg'] at h1
              cases h1
              exact h2
          · rcases s1 k t ht with h | ⟨-, y, hy, rfl⟩
            · rw [List.getElem?_set_ne (by omega)] at h
              exact hR.later k t g' (by omega) h hg'
            · obtain ⟨-, -, x', h', g'', a3, a4, a5, a6, a7⟩ := hE.deps y hy
              rw [hg'] at a6
              cases a6
              exact a7
          · by_cases h : j < pre.length
            · exact s2 _ (hset _ (hR.deps j h y hy z hz))
            · have hj' : j = pre.length := by omega
              subst hj'
              rw [hx] at hy
              cases hy
              exact s3 z hz

end Ctx
end XPlan
end Verif
