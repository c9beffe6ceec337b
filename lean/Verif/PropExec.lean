import Verif.ExecRun

/-!
# C49: Executing a plan computes the tables it describes

`/repo/nemo-physical/src/management/execution_plan.rs`, `/repo/nemo-physical/src/management/database.rs:395-673`.
-/

set_option linter.unusedSimpArgs false
set_option linter.unusedSectionVars false
set_option linter.unusedVariables false

namespace Verif
namespace XPlan
open Permut (Built Moves)
variable {α : Type} [SVal α] {M V U B T N : Type} [DecidableEq M] [DecidableEq B]

/-- Plans to which the theorems apply.  Nodes are determined by their ids, only known tables are fetched, rows of tables have
the right length, and permanent output nodes can be computed. -/
structure Executable (e : PEnv α V U B T N) (tabAr : Nat → Nat) (tab : Nat → List α → Prop) (known : Nat → Prop)
    (outs : List (Out M V U B T N)) : Prop where
  ids : (outs.map fun o => o.node.id).Nodup
  rows : ∀ t r, tab t r → r.length = tabAr t
  nodes : ∃ nd : Nat → Node M V U B T N, ∀ o ∈ outs, SubOK known nd o.node
  fits : ∃ D : Nat → Prop, ∀ o ∈ outs, o.perm.isSome → Fits e tabAr outs D o.node o.node.id ident ⟨false, false⟩ ∧
    OutOK tabAr outs D o.node.id o.node ident

/-- The tables in the result of an execution: each is the table of a permanent output node and contains exactly the rows of the
node, and all permanent output nodes that have rows are in the result. -/
def Computes (e : PEnv α V U B T N) (tabAr : Nat → Nat) (tab : Nat → List α → Prop) (outs : List (Out M V U B T N))
    (res : List (Nat × Permut × Trie α)) : Prop :=
  (∀ x ∈ res, ∃ o ∈ outs, o.node.id = x.1 ∧ o.perm = some x.2.1 ∧
    Plan.TableOK x.2.2 (o.node.arity tabAr) (o.node.Sem e.env tab) ∧ ∃ r, o.node.Sem e.env tab r) ∧
  ∀ o ∈ outs, ∀ p, o.perm = some p → (∃ r, o.node.Sem e.env tab r) → ∃ t, (o.node.id, p, t) ∈ res

/-- some node that must have rows has none -/
def Stops (e : PEnv α V U B T N) (tab : Nat → List α → Prop) (outs : List (Out M V U B T N)) : Prop :=
  ∃ o ∈ outs, o.nonEmpty = true ∧ ∀ r, ¬ o.node.Sem e.env tab r

theorem permanents_spec : ∀ (xs : List (Entry M V U B T N)) (cs : Comps α), xs.length = cs.length →
    (∀ (k : Nat) x, xs[k]? = some x → x.perm.isSome → ∃ t, cs[k]? = some (some t)) →
    ∃ res, permanents xs cs = some res ∧
      (∀ y ∈ res, ∃ (k : Nat) (x : Entry M V U B T N), xs[k]? = some x ∧ cs[k]? = some (some y.2.2) ∧ x.perm = some y.2.1 ∧ x.id = y.1 ∧ y.2.2.numRows ≠ 0) ∧
      ∀ (k : Nat) x t o, xs[k]? = some x → cs[k]? = some (some t) → x.perm = some o → t.numRows ≠ 0 → (x.id, o, t) ∈ res
  | [], cs, hl, h => ⟨[], by rw [permanents]; simp, by simp, by simp⟩
  | x :: xs, [], hl, h => by simp at hl
  | x :: xs, c :: cs, hl, h => by
      obtain ⟨res, e1, e2, e3⟩ := permanents_spec xs cs (by simpa using hl) (fun k y hy hp => by
        have := h (k + 1) y (by simpa using hy) hp
        simpa using this)
      have e2' : ∀ y ∈ res, ∃ (k : Nat) (x' : Entry M V U B T N), (x :: xs)[k]? = some x' ∧ (c :: cs)[k]? = some (some y.2.2) ∧
          x'.perm = some y.2.1 ∧ x'.id = y.1 ∧ y.2.2.numRows ≠ 0 := by
        intro y hy
        obtain ⟨k, x', h1, h2⟩ := e2 y hy
        exact ⟨k + 1, x', by simpa using h1, by simpa using h2⟩
      rw [permanents, e1, Option.bind_some]
      cases hp : x.perm with
      | none =>
        refine ⟨res, rfl, e2', fun k x' t o h1 h2 h3 h4 => ?_⟩
        cases k with
        | zero => simp at h1; subst h1; rw [hp] at h3; simp at h3
        | succ k => exact e3 k x' t o (by simpa using h1) (by simpa using h2) h3 h4
      | some o =>
        obtain ⟨t, ht⟩ := h 0 x (by simp) (by rw [hp]; rfl)
        simp only [List.getElem?_cons_zero, Option.some.injEq] at ht
        subst ht
        refine ⟨_, rfl, ?_⟩
        by_cases hn : t.numRows = 0
        · dsimp only
          rw [if_pos hn]
          refine ⟨e2', fun k x' t' o h1 h2 h3 h4 => ?_⟩
          cases k with
          | zero => simp at h2; subst h2; exact absurd hn h4
          | succ k => exact e3 k x' t' o (by simpa using h1) (by simpa using h2) h3 h4
        · dsimp only
          rw [if_neg hn]
          refine ⟨fun y hy => ?_, fun k x' t' o' h1 h2 h3 h4 => ?_⟩
          · rcases List.mem_cons.mp hy with rfl | hy
            · exact ⟨0, x, by simp, by simp, hp, rfl, hn⟩
            · exact e2' y hy
          · cases k with
            | zero =>
              simp at h1 h2
              subst h1 h2
              rw [hp] at h3
              cases h3
              exact List.mem_cons_self
            | succ k => exact List.mem_cons_of_mem _ (e3 k x' t' o' (by simpa using h1) (by simpa using h2) h3 h4)

theorem permRows_identity {o : Permut} (ho : Built o) (h : o.isIdentity = true) (S : List α → Prop) (r : List α) : PermRows o S r ↔ S r := by
  have hid := (Permut.isIdentity_iff o).mp h
  have : o = ident := Permut.WF.eq_of_get ho.wf ident_built.wf fun i => by rw [hid]; simp [ident, Permut.get]
  rw [this]
  exact permRows_ident S r

/-- The series of trees of a plan, and what happens when it is run. -/
theorem execute_core [Nonempty α] {e : PEnv α V U B T N} (he : Plan.EnvOK e) {outs : List (Out M V U B T N)} {tabAr : Nat → Nat}
    {tab : Nat → List α → Prop} {known : Nat → Prop} (h : Executable e tabAr tab known outs) (d : α) :
    ∃ st, finalize outs = some st ∧ (∀ x ∈ st.loaded, Built x.2 ∧ Moves x.2 (tabAr x.1) ∧ known x.1) ∧
      ∀ loaded : List (Trie α), (∀ (i t : Nat) (o : Permut), st.loaded[i]? = some (t, o) →
          ∃ T, loaded[i]? = some T ∧ Plan.TableOK T (tabAr t) (PermRows o (tab t))) →
        ∃ r, runTrees e outs loaded d st.trees 0 (List.replicate st.trees.length none) = some r ∧
          match r with
          | none => Stops e tab outs
          | some comps => ∃ res, permanents st.trees comps = some res ∧ Computes e tabAr tab outs res := by
  obtain ⟨nd, hnd⟩ := h.nodes
  obtain ⟨D, hD⟩ := h.fits
  let X : Ctx α M V U B T N := ⟨e, outs, tabAr, tab, D, known, nd⟩
  have hP : X.PlanOK := ⟨h.ids, hnd, h.rows, hD⟩
  obtain ⟨st, G, e1, hI, hR, hk⟩ := Ctx.collect_spec hP outs (fun o ho => ho) ⟨[], [], []⟩ [] Ctx.inv_init
  refine ⟨st, e1, hI.loaded, fun loaded hL => ?_⟩
  have hu : ∀ k, refsOf G (st.trees.map (·.root)) k ≤ usedAt st.trees k := by
    intro k
    have := hR.used k
    simp only [usedAt, refsOf, List.getElem?_nil, Option.map_none, Option.getD_none, List.zip_nil_left, List.map_nil, List.sum_nil] at this ⊢
    omega
  have hL' : X.LoadedOK st.loaded loaded := hL
  have hrep : ∀ (k : Nat) (t : Trie α), (List.replicate st.trees.length (none : Option (Trie α)))[k]? ≠ some (some t) := by
    intro k t hh
    rw [List.getElem?_replicate] at hh
    split at hh <;> simp at hh
  obtain ⟨r, e2, hr⟩ := Ctx.run_spec (X := X) he hI hu hL' d st.trees [] (List.replicate st.trees.length none) rfl
    ⟨by simp, fun k hk => by simp at hk, fun k t x g hh => absurd hh (hrep k t), fun k t g _ hh => absurd hh (hrep k t), fun j hj => by simp at hj⟩
  refine ⟨r, e2, ?_⟩
  have hnode : ∀ o ∈ outs, nd o.node.id = o.node := fun o ho => Ctx.subOK_nd (hnd o ho)
  cases r with
  | none =>
    obtain ⟨o, ho, h1, h2⟩ := hr
    refine ⟨o, ho, h1, ?_⟩
    have h2 : ∀ r, ¬ (nd o.node.id).Sem e.env tab r := h2
    rw [hnode o ho] at h2
    exact h2
  | some comps =>
    dsimp only at hr ⊢
    have hdone : ∀ (k : Nat) x, st.trees[k]? = some x → ∃ t, comps[k]? = some (some t) := fun k x hx =>
      hr.done k (List.getElem?_eq_some_iff.mp hx).1 (List.getElem?_eq_some_iff.mp hx).1
    obtain ⟨res, p1, p2, p3⟩ := permanents_spec st.trees comps hr.len.symm (fun k x hx _ => hdone k x hx)
    refine ⟨res, p1, ?_, ?_⟩
    · intro y hy
      obtain ⟨k, x, k1, k2, k3, k4, k5⟩ := p2 y hy
      have hkl : k < G.length := by rw [hI.len]; exact (List.getElem?_eq_some_iff.mp k1).1
      have hg := List.getElem?_eq_getElem hkl
      have hE := hI.entry k x _ k1 hg
      obtain ⟨o, o1, -, -, o2⟩ := hE.out
      have hm : o ∈ outs := List.mem_of_find?_eq_some o1
      have hid : o.node.id = x.id := by simpa using List.find?_some o1
      have hord : (G[k]).ord.isIdentity = true := by
        by_contra hc
        rw [k3] at o2
        unfold resultFor at o2
        rw [if_neg hc] at o2
        simp at o2
      have hperm : o.perm = some y.2.1 := by
        rw [k3] at o2
        unfold resultFor at o2
        rw [if_pos hord] at o2
        exact o2.symm
      have hused : 0 < x.used := by
        rcases hE.used with h | ⟨-, h⟩
        · exact h
        · rw [k3] at h; simp at h
      have hT := hr.right k _ x _ k2 k1 hg hused
      have hnd' : X.nd (G[k]).id = o.node := by
        rw [← hE.id, ← hid]; exact hnode o hm
      rw [hnd'] at hT
      have hT2 : Plan.TableOK y.2.2 (o.node.arity tabAr) (o.node.Sem e.env tab) := by
        refine Plan.TableOK.congr hT fun r => ?_
        show PermRows _ (X.sem (X.nd (G[k]).id)) r ↔ _
        rw [hnd']
        exact permRows_identity hE.built hord _ r
      refine ⟨o, hm, hid.trans k4, hperm, hT2, ?_⟩
      by_contra hc
      exact k5 (hT2.empty_iff.mpr fun r hr => hc ⟨r, hr⟩)
    · intro o ho p hp hex
      obtain ⟨k, dep, hg⟩ := hk o ho (by rw [hp]; rfl)
      have hkl : k < st.trees.length := by rw [← hI.len]; exact (List.getElem?_eq_some_iff.mp hg).1
      have hx := List.getElem?_eq_getElem hkl
      have hE := hI.entry k _ _ hx hg
      obtain ⟨t, ht⟩ := hdone k _ hx
      obtain ⟨o', o1, -, -, o2⟩ := hE.out
      have hid := hE.id
      dsimp only at hid o2
      rw [hid] at o1
      have hoo : findOut outs o.node.id = some o := Ctx.findOut_mem h.ids ho
      have o1' : findOut outs o.node.id = some o' := o1
      rw [hoo] at o1'
      cases o1'
      have hperm : (st.trees[k]).perm = some p := by rw [o2, ← hp]; rfl
      have hused : 0 < (st.trees[k]).used := by
        rcases hE.used with h | ⟨-, h⟩
        · exact h
        · rw [hperm] at h; simp at h
      have hT := hr.right k t _ _ ht hx hg hused
      have hne : t.numRows ≠ 0 := by
        intro hz
        obtain ⟨r, hr⟩ := hex
        refine hT.empty_iff.mp hz r ((permRows_ident _ r).mpr ?_)
        show (nd o.node.id).Sem e.env tab r
        rw [hnode o ho]; exact hr
      exact ⟨t, by rw [← hid]; exact p3 k _ t p hx ht hperm hne⟩

/-- **C49.** Executing a plan gives, for every permanent output node, a table with exactly the rows of the node; nodes without rows
have no table.  The only exception: if some node that must have rows has none, then there may be no result at all.
(Only for plans that are `Executable`: see there and DESIGN.md for the others.) -/
theorem executePlan_rows_partial [Nonempty α] {e : PEnv α V U B T N} (he : Plan.EnvOK e) {outs : List (Out M V U B T N)} {tabAr : Nat → Nat}
    {tab : Nat → List α → Prop} {known : Nat → Prop} (h : Executable e tabAr tab known outs) {trie : Nat → Permut → Option (Trie α)}
    (htrie : ∀ t o, known t → Built o → Moves o (tabAr t) → ∃ T, trie t o = some T ∧ Plan.TableOK T (tabAr t) (PermRows o (tab t)))
    (d : α) : ∃ res, executePlan e outs trie d = some res ∧ ((res = [] ∧ Stops e tab outs) ∨ Computes e tabAr tab outs res) := by
  obtain ⟨st, e1, hl, hrun⟩ := execute_core he h d
  have hload : ∀ l : List (Nat × Permut), (∀ x ∈ l, Built x.2 ∧ Moves x.2 (tabAr x.1) ∧ known x.1) →
      ∃ loaded, loadAll trie l = some loaded ∧ ∀ (i t : Nat) (o : Permut), l[i]? = some (t, o) →
        ∃ T, loaded[i]? = some T ∧ Plan.TableOK T (tabAr t) (PermRows o (tab t)) := by
    intro l
    induction l with
    | nil => exact fun _ => ⟨[], rfl, by simp⟩
    | cons x l ih =>
      intro hx
      obtain ⟨loaded, a1, a2⟩ := ih fun y hy => hx y (List.mem_cons_of_mem _ hy)
      obtain ⟨b1, b2, b3⟩ := hx x List.mem_cons_self
      obtain ⟨T, t1, t2⟩ := htrie x.1 x.2 b3 b1 b2
      refine ⟨T :: loaded, ?_, ?_⟩
      · unfold loadAll at a1 ⊢
        rw [List.mapM_cons, t1, a1]; rfl
      · intro i t o hi
        cases i with
        | zero =>
          simp only [List.getElem?_cons_zero, Option.some.injEq] at hi
          subst hi
          exact ⟨T, by simp, t2⟩
        | succ i => simpa using a2 i t o (by simpa using hi)
  obtain ⟨loaded, l1, l2⟩ := hload st.loaded hl
  obtain ⟨r, e2, hr⟩ := hrun loaded l2
  unfold executePlan
  rw [e1, Option.bind_some, l1, Option.bind_some, e2, Option.bind_some]
  cases r with
  | none => exact ⟨[], rfl, .inl ⟨rfl, hr⟩⟩
  | some comps =>
    obtain ⟨res, p1, p2⟩ := hr
    exact ⟨res, p1, .inr p2⟩

/-! ### On a database -/

/-- loading tables does not change tables in memory -/
theorem trie_loadAt {m m' : Mgr α} {sid : Nat} {t : Trie α} (h : m.loadAt sid = some (t, m')) {s : Nat} {T : Trie α} (hs : m.trie s = some T) :
    m'.trie s = some T := by
  unfold Mgr.loadAt at h
  simp only [Option.bind_eq_bind, Option.pure_def] at h
  obtain ⟨st, h1, h2⟩ := Option.bind_eq_some_iff.mp h
  obtain ⟨t', h3, h4⟩ := Option.bind_eq_some_iff.mp h2
  cases h4
  unfold Mgr.trie Mgr.setStored at *
  by_cases hss : sid = s
  · subst hss
    rw [h1] at hs
    cases st with
    | mem t' =>
      simp only [Storage.load, Option.some.injEq] at h3 hs
      subst h3 hs
      rw [List.getElem?_set_self (List.getElem?_eq_some_iff.mp h1).1]
    | empty => simp at hs
    | sources n l => simp at hs
  · rw [List.getElem?_set_ne hss]; exact hs

theorem trie_setNew {m : Mgr α} {T t : Trie α} {s : Nat} (hs : m.trie s = some T) (l : List (Storage α)) (sm : List (Nat × List (Permut × Nat)))
    (rf : List (Nat × Nat × Permut)) : (Mgr.setStored ⟨m.stored ++ l, sm, rf⟩ m.stored.length (.mem t)).trie s = some T := by
  unfold Mgr.trie Mgr.setStored at *
  have hlt : s < m.stored.length := by
    by_contra h
    rw [List.getElem?_eq_none (by omega)] at hs
    simp at hs
  rw [List.getElem?_set_ne (by omega), List.getElem?_append_left hlt]
  exact hs

theorem loadAt_maps {m m' : Mgr α} {sid : Nat} {t : Trie α} (h : m.loadAt sid = some (t, m')) : m'.smap = m.smap ∧ m'.refs = m.refs := by
  unfold Mgr.loadAt at h
  simp only [Option.bind_eq_bind, Option.pure_def] at h
  obtain ⟨st, h1, h2⟩ := Option.bind_eq_some_iff.mp h
  obtain ⟨t', h3, h4⟩ := Option.bind_eq_some_iff.mp h2
  cases h4
  exact ⟨rfl, rfl⟩

/-- requesting a table does not change tables in memory -/
theorem trie_trieId {m m' : Mgr α} {id sid : Nat} {o : Permut} {d : α} (h : m.trieId id o d = some (sid, m'))
    (hid : m.refs.lookup id = none) {s : Nat} {T : Trie α}
    (hs : m.trie s = some T) : m'.trie s = some T := by
  have hres : m.resolve id o = (id, o) := by rw [Mgr.resolve, hid]
  rw [Mgr.trieId, hres, Mgr.trieIdAt] at h
  simp only [Option.bind_eq_bind, Option.pure_def] at h
  obtain ⟨om, h1, h2⟩ := Option.bind_eq_some_iff.mp h
  cases hf : findOrder om o with
  | some k =>
    rw [hf] at h2
    dsimp only at h2
    obtain ⟨⟨t, m1⟩, h3, h4⟩ := Option.bind_eq_some_iff.mp h2
    cases h4
    exact trie_loadAt h3 hs
  | none =>
    rw [hf] at h2
    dsimp only at h2
    rw [Mgr.reorder] at h2
    simp only [Option.bind_eq_bind, Option.pure_def] at h2
    obtain ⟨c, -, h3⟩ := Option.bind_eq_some_iff.mp h2
    obtain ⟨st, -, h4⟩ := Option.bind_eq_some_iff.mp h3
    obtain ⟨⟨t, m1⟩, h5, h6⟩ := Option.bind_eq_some_iff.mp h4
    have hs1 := trie_loadAt h5 hs
    split at h6
    · cases h6; exact hs1
    · obtain ⟨t', -, h7⟩ := Option.bind_eq_some_iff.mp h6
      obtain ⟨a1, a2⟩ := loadAt_maps h5
      have hres1 : m1.resolve id o = (id, o) := by rw [Mgr.resolve, a2, hid]
      dsimp only at h7
      rw [Mgr.addTrie, Mgr.addStorage, hres1, Mgr.addStorageAt] at h7
      dsimp only at h7
      rw [a1, h1] at h7
      dsimp only at h7
      rw [hf] at h7
      cases h7
      exact trie_setNew hs1 _ _ _

/-- tables of a database with the given content -/
def DbTables (m : Mgr α) (c : Content α) (tabAr : Nat → Nat) (tab : Nat → List α → Prop) (known : Nat → Prop) : Prop :=
  ∀ t, known t → m.refs.lookup t = none ∧ ∃ rows, c t = some (tabAr t, rows) ∧ ∀ r, tab t r ↔ r ∈ rows

theorem loadMgr_spec {c : Content α} {tabAr : Nat → Nat} {tab : Nat → List α → Prop} {known : Nat → Prop} (d : α) :
    ∀ (l : List (Nat × Permut)) (m : Mgr α), History m c → DbTables m c tabAr tab known →
      (∀ x ∈ l, Built x.2 ∧ Moves x.2 (tabAr x.1) ∧ known x.1) →
      ∃ sids m', loadMgr d l m = some (sids, m') ∧ History m' c ∧ m'.refs = m.refs ∧
        (∀ s T, m.trie s = some T → m'.trie s = some T) ∧
        ∃ loaded, sids.mapM m'.trie = some loaded ∧ ∀ (i t : Nat) (o : Permut), l[i]? = some (t, o) →
          ∃ T, loaded[i]? = some T ∧ Plan.TableOK T (tabAr t) (PermRows o (tab t))
  | [], m, hH, hD, hl => ⟨[], m, rfl, hH, rfl, fun s T h => h, [], rfl, by simp⟩
  | (t, o) :: l, m, hH, hD, hl => by
      obtain ⟨b1, b2, b3⟩ := hl (t, o) List.mem_cons_self
      obtain ⟨k1, rows, k2, k3⟩ := hD t b3
      obtain ⟨sid, m1, T, a1, ⟨-, a2⟩, a3, a4, -⟩ := hH.inv.trieId b1 k2 b2 d
      have hH1 : History m1 c := .step hH (.request k2 b1 b2 a1)
      obtain ⟨sids, m', c1, c2, c3, c4, loaded, c5, c6⟩ := loadMgr_spec (tabAr := tabAr) (tab := tab) (known := known) d l m1 hH1
        (fun t' ht' => by rw [a2]; exact hD t' ht') (fun x hx => hl x (List.mem_cons_of_mem _ hx))
      refine ⟨sid :: sids, m', ?_, c2, by rw [c3, a2], fun s T hs => c4 s T (trie_trieId a1 k1 hs), T :: loaded, ?_, ?_⟩
      · rw [loadMgr, a1, Option.bind_some, c1]; rfl
      · rw [List.mapM_cons, c4 _ _ a3, c5]; rfl
      · intro i t' o' hi
        cases i with
        | zero =>
          simp only [List.getElem?_cons_zero, Option.some.injEq, Prod.mk.injEq] at hi
          obtain ⟨rfl, rfl⟩ := hi
          refine ⟨T, by simp, ?_⟩
          obtain ⟨n1, sorted, n2, n3, n4⟩ := a4 k1
          have hr := (hH.inv.known t _ rows k2).1
          refine .inl ⟨hr.1, n1, sorted, n2, n3, fun r hx => permuteRows_length b1 b2 hr.2 r ((n4 r).mp hx), fun r => ?_⟩
          rw [n4, permuteRows, List.mem_filterMap]
          unfold PermRows
          simp only [k3]
        | succ i => simpa using c6 i t' o' (by simpa using hi)

/-- the rows of a table that is stored in the order `p` -/
theorem unpermute {p : Permut} (hp : Built p) {n : Nat} (hm : Moves p n) {l : List (List α)} (hl : ∀ r ∈ l, r.length = n) :
    (∀ x ∈ permuteRows p.invert l, x.length = n) ∧ ∀ r, r ∈ permuteRows p (permuteRows p.invert l) ↔ r ∈ l := by
  have hmi : Moves p.invert n := by
    intro i hi
    have := hp.wf.invert_get i
    rw [hm i hi] at this
    exact this
  refine ⟨permuteRows_length (.invert hp) hmi hl, fun r => ?_⟩
  unfold permuteRows
  simp only [List.mem_filterMap]
  constructor
  · rintro ⟨x, ⟨y, hy, e1⟩, e2⟩
    have := (Permut.permute_invert hp y (by rw [hl y hy]; exact hm)).2
    rw [e1, Option.bind_some, e2] at this
    cases this
    exact hy
  · intro hr
    have := (Permut.permute_invert hp r (by rw [hl r hr]; exact hm)).2
    obtain ⟨x, e1, e2⟩ := Option.bind_eq_some_iff.mp this
    exact ⟨x, ⟨r, hr, e1⟩, e2⟩

/-- a table with the rows `S`, whose columns are in the order `p`, is registered -/
def Registered (c : Content α) (id n : Nat) (p : Permut) (S : List α → Prop) : Prop :=
  ∃ rows, c id = some (n, rows) ∧ ∀ r, S r ↔ ∃ x ∈ rows, p.permute x = some r

theorem registerAll_spec {ar : Nat → Nat} {S : Nat → List α → Prop} {pm : Nat → Permut} : ∀ (l : List (Nat × Permut × Trie α)) (res : List (Nat × Nat))
    (next : Nat) (m : Mgr α) (c : Content α), History m c → (∀ i, next ≤ i → c i = none) →
    (∀ x ∈ l, Built x.2.1 ∧ Moves x.2.1 (ar x.1) ∧ 0 < ar x.1 ∧ x.2.1 = pm x.1 ∧ Plan.TableOK x.2.2 (ar x.1) (S x.1) ∧ ∃ r, S x.1 r) →
    (∀ id k, res.lookup id = some k → k < next ∧ Registered c k (ar id) (pm id) (S id)) →
    ∃ c', History (registerAll l res next m).2.2 c' ∧ (∀ i, i < next → c' i = c i) ∧ (∀ i, (registerAll l res next m).2.1 ≤ i → c' i = none) ∧
      next ≤ (registerAll l res next m).2.1 ∧
      (∀ id k, (registerAll l res next m).1.lookup id = some k → Registered c' k (ar id) (pm id) (S id)) ∧
      ∀ id, (registerAll l res next m).1.lookup id = none ↔ res.lookup id = none ∧ ∀ x ∈ l, x.1 ≠ id
  | [], res, next, m, c, hH, hf, hl, hres => ⟨c, hH, fun i _ => rfl, hf, le_rfl, fun id k h => (hres id k h).2, fun id => by simp [registerAll]⟩
  | (id, o, t) :: l, res, next, m, c, hH, hf, hl, hres => by
      obtain ⟨b1, b2, b3, b4, b5, b6⟩ := hl _ List.mem_cons_self
      dsimp only at b1 b2 b3 b4 b5 b6
      obtain ⟨L, hL1, hL2, hL3⟩ : ∃ L : List (List α), t.arity = ar id ∧ (SortedRows L ∧ Rep t L) ∧ (∀ r ∈ L, r.length = ar id) ∧ ∀ r, r ∈ L ↔ S id r := by
        rcases b5 with ⟨-, a, L, a1, a2, a3, a4⟩ | ⟨a, -⟩ | ⟨-, a⟩
        · exact ⟨L, a, ⟨a1, a2⟩, a3, a4⟩
        · omega
        · obtain ⟨r, hr⟩ := b6
          exact absurd hr (a r)
      obtain ⟨u1, u2⟩ := unpermute b1 b2 hL3.1
      have hstep : MgrStep 0 m c (m.addTrie next o t).2 (c.set next (ar id) (permuteRows o.invert L)) :=
        .addTrie (Nat.zero_le _) (hf next le_rfl) b1 b2 ⟨b3, u1⟩ ⟨hL1, L, hL2.1, hL2.2, fun r => (u2 r).symm⟩
      have hreg : Registered (c.set next (ar id) (permuteRows o.invert L)) next (ar id) (pm id) (S id) := by
        refine ⟨permuteRows o.invert L, by simp [Content.set], fun r => ?_⟩
        rw [← hL3.2, ← u2 r, ← b4]
        rw [permuteRows, List.mem_filterMap]
      obtain ⟨c', d1, d2, d3, d4, d5, d6⟩ := registerAll_spec (ar := ar) (S := S) (pm := pm) l (hmInsert res id next) (next + 1) (m.addTrie next o t).2 _
        (.step hH hstep) (fun i hi => by
          rw [Content.set, if_neg (by omega)]; exact hf i (by omega)) (fun x hx => hl x (List.mem_cons_of_mem _ hx)) (by
          intro id' k hk
          rw [hmInsert_lookup] at hk
          by_cases hid : id' = id
          · rw [if_pos hid] at hk
            cases hk
            subst hid
            exact ⟨Nat.lt_succ_self _, hreg⟩
          · rw [if_neg hid] at hk
            obtain ⟨q1, rows, q2, q3⟩ := hres id' k hk
            exact ⟨by omega, rows, by rw [Content.set, if_neg (by omega)]; exact q2, q3⟩)
      rw [registerAll]
      refine ⟨c', d1, fun i hi => ?_, d3, by omega, d5, fun id' => ?_⟩
      · rw [d2 i (by omega), Content.set, if_neg (by omega)]
      · rw [d6, hmInsert_lookup]
        by_cases hid : id' = id
        · subst hid; simp
        · rw [if_neg hid]
          simp only [List.mem_cons, forall_eq_or_imp]
          constructor
          · rintro ⟨q1, q2⟩; exact ⟨q1, fun h => hid h.symm, q2⟩
          · rintro ⟨q1, -, q2⟩; exact ⟨q1, q2⟩

/-- **C49.** Executing a plan on a database in any state that can be reached: afterwards the database is in such a state again, its
tables are unchanged, and for each permanent output node that has rows there is a new table with exactly the rows of the node (with columns in the
order that was asked for); there are no other results.  The only exception: if some node that must have rows has
none, then there may be no results at all.  (Only for plans that are `Executable`, and for tables with at least one column.) -/
theorem executeDb_rows_partial [Nonempty α] {e : PEnv α V U B T N} (he : Plan.EnvOK e) {outs : List (Out M V U B T N)} {tabAr : Nat → Nat}
    {tab : Nat → List α → Prop} {known : Nat → Prop} (h : Executable e tabAr tab known outs) {m : Mgr α} {c : Content α} (hH : History m c)
    {next : Nat} (hfree : ∀ i, next ≤ i → c i = none) (htab : DbTables m c tabAr tab known)
    (hperm : ∀ o ∈ outs, ∀ p, o.perm = some p → Built p ∧ Moves p (o.node.arity tabAr) ∧ 0 < o.node.arity tabAr) (d : α) :
    ∃ res next' m' c', executeDb e outs d m next = some (res, next', m') ∧ History m' c' ∧ (∀ i, i < next → c' i = c i) ∧
      (∀ i, next' ≤ i → c' i = none) ∧
      ((res = [] ∧ Stops e tab outs) ∨
        ((∀ o ∈ outs, ∀ p, o.perm = some p → (∃ r, o.node.Sem e.env tab r) →
            ∃ k, res.lookup o.node.id = some k ∧ Registered c' k (o.node.arity tabAr) p (o.node.Sem e.env tab)) ∧
          ∀ id k, res.lookup id = some k → ∃ o ∈ outs, o.node.id = id ∧ o.perm.isSome ∧ ∃ r, o.node.Sem e.env tab r)) := by
  obtain ⟨st, e1, hl, hrun⟩ := execute_core he h d
  obtain ⟨sids, m1, l1, l2, l3, l4, loaded, l5, l6⟩ := loadMgr_spec d st.loaded m hH htab hl
  obtain ⟨r, e2, hr⟩ := hrun loaded l6
  unfold executeDb
  rw [e1, Option.bind_some, l1, Option.bind_some]
  dsimp only
  rw [l5, Option.bind_some, e2, Option.bind_some]
  cases r with
  | none => exact ⟨[], next, m1, c, rfl, l2, fun _ _ => rfl, hfree, .inl ⟨rfl, hr⟩⟩
  | some comps =>
    obtain ⟨res, p1, p2, p3⟩ := hr
    dsimp only
    rw [p1, Option.map_some]
    obtain ⟨nd, hnd⟩ := h.nodes
    have hnode : ∀ o ∈ outs, nd o.node.id = o.node := fun o ho => Ctx.subOK_nd (hnd o ho)
    obtain ⟨c', d1, d2, d3, d4, d5, d6⟩ := registerAll_spec (ar := fun id => (nd id).arity tabAr) (S := fun id => (nd id).Sem e.env tab)
      (pm := fun id => ((findOut outs id).bind (·.perm)).getD ident) res [] next m1 c l2 hfree (by
        intro x hx
        obtain ⟨o, o1, o2, o3, o4, o5⟩ := p2 x hx
        obtain ⟨q1, q2, q3⟩ := hperm o o1 _ o3
        rw [← o2, hnode o o1, Ctx.findOut_mem h.ids o1, Option.bind_some, o3]
        exact ⟨q1, q2, q3, rfl, o4, o5⟩) (by simp)
    refine ⟨_, _, _, c', rfl, d1, d2, d3, .inr ⟨?_, ?_⟩⟩
    · intro o ho p hp hex
      obtain ⟨t, ht⟩ := p3 o ho p hp hex
      cases hk : (registerAll res [] next m1).1.lookup o.node.id with
      | none => exact absurd rfl (((d6 o.node.id).mp hk).2 _ ht)
      | some k =>
        refine ⟨k, rfl, ?_⟩
        have := d5 o.node.id k hk
        rw [hnode o ho, Ctx.findOut_mem h.ids ho, Option.bind_some, hp] at this
        exact this
    · intro id k hk
      have : ¬ ∀ x ∈ res, x.1 ≠ id := by
        intro hc
        have := (d6 id).mpr ⟨rfl, hc⟩
        rw [hk] at this
        simp at this
      push Not at this
      obtain ⟨x, hx, rfl⟩ := this
      obtain ⟨o, o1, o2, o3, o4, o5⟩ := p2 x hx
      exact ⟨o, o1, o2, by rw [o3]; rfl, o5⟩

end XPlan
end Verif
