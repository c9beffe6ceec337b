import Verif.RowScan
import Verif.TrieRep

/-!
# Row scans enumerate the rows of the tree

`RowCfg.collect_spec`: iterating a row scan over a partial trie scan that behaves like a tree lists
the rows of the tree from left to right.
-/

set_option linter.unusedSimpArgs false
set_option linter.unusedSectionVars false
set_option linter.unusedVariables false

namespace Verif
variable {S α : Type} [SVal α]

/-- the children of a node of all possible types -/
def kidsAt (types : Nat → List Ty) (ch : List α → Ty → List α) (p : List α) : List α :=
  (types p.length).flatMap (ch p)

theorem dfs_succ {β : Type} (types : Nat → List Ty) (ch : List α → Ty → List α)
    (g : List α → List β) (n : Nat) (p : List α) :
    dfs types ch g (n + 1) p = (kidsAt types ch p).flatMap fun a => dfs types ch g n (p ++ [a]) := by
  rw [dfs, kidsAt, List.flatMap_assoc]

namespace RowCfg
variable {cfg : RowCfg S α} {ch : List α → Ty → List α} {R : S → TPath α → Prop}

/-- the used types are those of the path -/
def UsedOK (types : Nat → List Ty) (used : Nat → Nat) : TPath α → Prop
  | [] => True
  | (τ, _) :: p => (types p.length)[used p.length]? = some τ ∧ UsedOK types used p

theorem usedOK_congr {types : Nat → List Ty} {u v : Nat → Nat} {p : TPath α}
    (h : ∀ k < p.length, u k = v k) (hu : UsedOK types u p) : UsedOK types v p := by
  induction p with
  | nil => trivial
  | cons e p ih =>
    obtain ⟨τ, c⟩ := e
    exact ⟨by rw [← h p.length (by simp)]; exact hu.1, ih (fun k hk => h k (by simp; omega)) hu.2⟩

theorem usedOK_suffix {types : Nat → List Ty} {u : Nat → Nat} {p q : TPath α}
    (h : UsedOK types u (p ++ q)) : UsedOK types u q := by
  induction p with
  | nil => exact h
  | cons e p ih => exact ih h.2

theorem usedOK_drop {types : Nat → List Ty} {u : Nat → Nat} {p : TPath α}
    (h : UsedOK types u p) (n : Nat) : UsedOK types u (p.drop n) := by
  rw [← List.take_append_drop n p] at h; exact usedOK_suffix h

theorem length_pref {p : TPath α} (h : p.full) : (TPath.pref p).length = p.length := by
  induction p with
  | nil => rfl
  | cons e p ih =>
    obtain ⟨τ, c⟩ := e
    obtain ⟨v, hv⟩ := Option.isSome_iff_exists.mp (GScan.full_cons.mp h).1
    rw [GScan.pref_cons hv]
    simp [ih (GScan.full_cons.mp h).2]

theorem full_suffix {p q : TPath α} (h : TPath.full (p ++ q)) : TPath.full q :=
  fun e he => h e (List.mem_append_right _ he)

/-- the value at layer `k` of a full path -/
theorem pref_getElem? {p q : TPath α} {τ : Ty} {c : Cur α} (h : TPath.full (p ++ (τ, c) :: q)) :
    (TPath.pref (p ++ (τ, c) :: q))[q.length]? = c.current := by
  have hq : TPath.full q := (GScan.full_cons.mp (full_suffix h)).2
  have hl : (TPath.pref q).length = q.length := length_pref hq
  obtain ⟨v, hv⟩ := Option.isSome_iff_exists.mp (GScan.full_cons.mp (full_suffix h)).1
  have : TPath.pref (p ++ (τ, c) :: q) = TPath.pref q ++ ([v] ++ TPath.pref p) := by
    simp [TPath.pref, List.filterMap_append, hv]
  rw [this, List.getElem?_append_right (by omega), hl, hv]
  simp

theorem rowEntries (H : Simulates cfg.ops cfg.arity ch R) {st : RowSt S α} {p : TPath α}
    (hR : R st.scan p) (hu : UsedOK cfg.types st.used p) (hf : p.full) (n : Nat)
    (hn : n ≤ p.length) :
    (List.range n).mapM (cfg.rowEntry st) = some ((TPath.pref p).take n) := by
  induction n with
  | zero => simp
  | succ n ih =>
    rw [List.range_succ, List.mapM_append, ih (by omega)]
    obtain ⟨a, e, b, hp, hb⟩ : ∃ a e b, p = a ++ e :: b ∧ b.length = n := by
      refine ⟨p.take (p.length - n - 1), p[p.length - n - 1]'(by omega), p.drop (p.length - n - 1 + 1),
        ?_, by simp; omega⟩
      rw [← List.drop_eq_getElem_cons, List.take_append_drop]
    obtain ⟨τ, c⟩ := e
    subst hp
    have h1 := H.current _ _ _ _ _ hR (by
      intro e; subst e
      simpa [Cur.current] using (GScan.full_cons.mp (full_suffix hf)).1)
    have h2 := pref_getElem? hf
    have h3 := (usedOK_suffix hu).1
    rw [hb] at h1 h2 h3
    obtain ⟨v, hv⟩ := Option.isSome_iff_exists.mp (GScan.full_cons.mp (full_suffix hf)).1
    rw [hv] at h1 h2
    have : cfg.rowEntry st n = some v := by
      simp [rowEntry, curType, h3, h1]
    simp only [Option.bind_eq_bind, Option.bind_some, List.mapM_cons, List.mapM_nil, this,
      Option.pure_def, Option.some.injEq]
    rw [List.take_add_one, h2]; simp

theorem ups_spec (H : Simulates cfg.ops cfg.arity ch R) (n : Nat) {s : S} {p : TPath α}
    (hR : R s p) (hn : n ≤ p.length) : ∃ s', cfg.ups n s = some s' ∧ R s' (p.drop n) := by
  induction n generalizing s p with
  | zero => exact ⟨s, rfl, hR⟩
  | succ n ih =>
    cases p with
    | nil => simp at hn
    | cons e p =>
      obtain ⟨s1, h1, h2⟩ := H.up _ _ _ hR
      obtain ⟨s2, h3, h4⟩ := ih h2 (by simpa using hn)
      exact ⟨s2, by simp [ups, h1, h3], by simpa using h4⟩

/-- the state and the path agree -/
structure Good (cfg : RowCfg S α) (R : S → TPath α → Prop) (st : RowSt S α) (p : TPath α) :
    Prop where
  rel : R st.scan p
  used : UsedOK cfg.types st.used p

theorem next_current {c : Cur α} : c.next.current = c.next.rem.head? := by
  cases c <;> rfl

theorem next_at (c : Cur α) : c.next = .at c.next.rem := by cases c <;> rfl

/-- an iteration on an exhausted column -/
theorem iter_none (H : Simulates cfg.ops cfg.arity ch R) {st : RowSt S α} {τ : Ty} {c : Cur α}
    {p : TPath α} (hG : Good cfg R st ((τ, c) :: p)) (hf : p.full) (hc : c.next.rem = []) :
    ∃ st₁, cfg.iter st = some (false, st₁) ∧ st₁.change = min p.length st.change ∧
      st₁.row = st.row ∧ st₁.single = st.single ∧ (∀ k < p.length, st₁.used k = st.used k) ∧
      ((st.used p.length + 1 = (cfg.types p.length).length ∧ Good cfg R st₁ p) ∨
       ∃ τ', (cfg.types p.length)[st.used p.length + 1]? = some τ' ∧
        st₁.used p.length = st.used p.length + 1 ∧
        Good cfg R st₁ ((τ', .fresh (ch (TPath.pref p) τ')) :: p)) := by
  obtain ⟨hd, hda⟩ := H.depth _ _ hG.rel
  obtain ⟨s1, e1, e2⟩ := H.next _ _ _ _ hG.rel
  rw [next_current, hc] at e1
  obtain ⟨s2, e3, e4⟩ := H.up _ _ _ e2
  have ht := hG.used.1
  have hlt : st.used p.length < (cfg.types p.length).length := by
    by_contra h
    rw [List.getElem?_eq_none (by omega)] at ht; cases ht
  by_cases hend : st.used p.length + 1 = (cfg.types p.length).length
  · refine ⟨⟨s2, Function.update st.used p.length 0, st.single, st.row, min p.length st.change⟩,
      ?_, rfl, rfl, rfl, fun k hk => Function.update_of_ne (by omega) _ _, .inl ⟨hend, ?_⟩⟩
    · simp only [iter, hd, curType, List.length_cons, Nat.add_sub_cancel, ht, Option.bind_eq_bind,
        Option.bind_some, e1, List.head?_nil, e3, downNext, hend, if_true]
      rfl
    · refine ⟨e4, usedOK_congr (fun k hk => ?_) hG.used.2⟩
      simp [setUsed, Function.update_of_ne (show k ≠ p.length by omega)]
  · have hlt' : st.used p.length + 1 < (cfg.types p.length).length := by omega
    obtain ⟨τ', hτ'⟩ : ∃ τ', (cfg.types p.length)[st.used p.length + 1]? = some τ' :=
      ⟨_, List.getElem?_eq_getElem hlt'⟩
    obtain ⟨s3, e5, e6⟩ := H.down _ _ τ' e4 hf (by simp at hda; omega)
    refine ⟨⟨s3, Function.update st.used p.length (st.used p.length + 1), st.single, st.row,
      min p.length st.change⟩,
      ?_, rfl, rfl, rfl, fun k hk => Function.update_of_ne (by omega) _ _, .inr ⟨τ', hτ', ?_, ?_⟩⟩
    · simp only [iter, hd, curType, List.length_cons, Nat.add_sub_cancel, ht, Option.bind_eq_bind,
        Option.bind_some, e1, List.head?_nil, e3, downNext, hend, if_false, hτ', e5]
      rfl
    · simp [setUsed]
    · refine ⟨e6, ?_, usedOK_congr (fun k hk => ?_) hG.used.2⟩
      · simp [setUsed, hτ']
      · simp [setUsed, Function.update_of_ne (show k ≠ p.length by omega)]

/-- an iteration that moves to a value on an inner layer -/
theorem iter_down (H : Simulates cfg.ops cfg.arity ch R) {st : RowSt S α} {τ : Ty} {c : Cur α}
    {p : TPath α} (hG : Good cfg R st ((τ, c) :: p)) (hf : p.full) {a : α} {l : List α}
    (hc : c.next.rem = a :: l) (hlast : p.length + 1 < cfg.arity) {τ₀ : Ty}
    (hτ₀ : (cfg.types (p.length + 1))[0]? = some τ₀) :
    ∃ st₁, cfg.iter st = some (false, st₁) ∧ st₁.change = min p.length st.change ∧
      st₁.row = st.row ∧ st₁.single = st.single ∧ st₁.used (p.length + 1) = 0 ∧
      (∀ k < p.length + 1, st₁.used k = st.used k) ∧
      Good cfg R st₁
        ((τ₀, .fresh (ch (TPath.pref p ++ [a]) τ₀)) :: (τ, .at (a :: l)) :: p) := by
  obtain ⟨hd, hda⟩ := H.depth _ _ hG.rel
  obtain ⟨s1, e1, e2⟩ := H.next _ _ _ _ hG.rel
  rw [next_current, hc] at e1
  rw [next_at, hc] at e2
  have hf' : TPath.full ((τ, .at (a :: l)) :: p) := GScan.full_cons.mpr ⟨rfl, hf⟩
  obtain ⟨s2, e3, e4⟩ := H.down _ _ τ₀ e2 hf' (by simpa using hlast)
  rw [GScan.pref_cons (v := a) rfl] at e4
  refine ⟨⟨s2, Function.update st.used (p.length + 1) 0, st.single, st.row, min p.length st.change⟩,
    ?_, rfl, rfl, rfl, by simp, fun k hk => Function.update_of_ne (by omega) _ _, ?_⟩
  · have hne : ¬ p.length = cfg.arity - 1 := by omega
    simp only [iter, hd, curType, List.length_cons, Nat.add_sub_cancel, hG.used.1,
      Option.bind_eq_bind, Option.bind_some, e1, List.head?_cons, hne, if_false, downFirst, hτ₀, e3]
    rfl
  · refine ⟨e4, ?_, ?_, usedOK_congr (fun k hk => ?_) hG.used.2⟩
    · simpa [setUsed] using hτ₀
    · simpa [setUsed] using hG.used.1
    · simp [setUsed, Function.update_of_ne (show k ≠ p.length + 1 by omega)]

/-- an iteration that finds a row -/
theorem iter_emit (H : Simulates cfg.ops cfg.arity ch R) (hE : cfg.existential ≤ cfg.arity)
    (hU : cfg.usedCols ≤ cfg.arity) {st : RowSt S α} {τ : Ty}
    {c : Cur α} {p : TPath α} (hG : Good cfg R st ((τ, c) :: p)) (hf : p.full) {a : α} {l : List α}
    (hc : c.next.rem = a :: l) (hlast : p.length + 1 = cfg.arity) :
    ∃ st₁, cfg.iter st = some (true, st₁) ∧ st₁.change = min p.length st.change ∧
      st₁.row = (TPath.pref p ++ [a]).take cfg.usedCols ∧ st₁.single = .at ∧
      st₁.used = st.used ∧
      Good cfg R st₁ (((τ, .at (a :: l)) :: p).drop cfg.existential) := by
  obtain ⟨hd, hda⟩ := H.depth _ _ hG.rel
  obtain ⟨s1, e1, e2⟩ := H.next _ _ _ _ hG.rel
  rw [next_current, hc] at e1
  rw [next_at, hc] at e2
  have hf' : TPath.full ((τ, .at (a :: l)) :: p) := GScan.full_cons.mpr ⟨rfl, hf⟩
  have hu' : UsedOK cfg.types st.used ((τ, .at (a :: l)) :: p) := hG.used
  obtain ⟨s2, e3, e4⟩ := ups_spec H cfg.existential e2 (by simp; omega)
  have hrow := rowEntries (cfg := cfg) H (st := ⟨s1, st.used, st.single, st.row,
    min p.length st.change⟩) e2 hu' hf' cfg.usedCols (by simp; omega)
  rw [GScan.pref_cons (v := a) rfl] at hrow
  refine ⟨⟨s2, st.used, .at, (TPath.pref p ++ [a]).take cfg.usedCols, min p.length st.change⟩,
    ?_, rfl, rfl, rfl, rfl, e4, usedOK_drop hu' _⟩
  have heq : p.length = cfg.arity - 1 := by omega
  simp only [iter, hd, curType, List.length_cons, Nat.add_sub_cancel, hG.used.1,
    Option.bind_eq_bind, Option.bind_some, e1, List.head?_cons, emit]
  rw [if_pos heq]
  simp only [hrow, Option.bind_some, e3]
  rfl

/-- Iterations of the loop; after returning a row the next call continues with a reset `change`. -/
inductive Steps (cfg : RowCfg S α) : RowSt S α → List (List α × Nat) → RowSt S α → Prop
  | refl (st) : Steps cfg st [] st
  | quiet {st st₁ es st₂} : cfg.ops.depth st.scan ≠ 0 → cfg.iter st = some (false, st₁) →
      Steps cfg st₁ es st₂ → Steps cfg st es st₂
  | emit {st st₁ es st₂} : cfg.ops.depth st.scan ≠ 0 → cfg.iter st = some (true, st₁) →
      st₁.row.length = cfg.usedCols → st₁.single = .at → 0 < cfg.ops.depth st₁.scan →
      Steps cfg { st₁ with change := cfg.usedCols - 1 } es st₂ →
      Steps cfg st ((st₁.row, st₁.change) :: es) st₂

theorem Steps.trans {st st₁ st₂ : RowSt S α} {es es' : List (List α × Nat)}
    (h : Steps cfg st es st₁) (h' : Steps cfg st₁ es' st₂) : Steps cfg st (es ++ es') st₂ := by
  induction h with
  | refl st => exact h'
  | quiet hd hi _ ih => exact .quiet hd hi (ih h')
  | emit hd hi hr hs h0 _ ih => exact .emit hd hi hr hs h0 (ih h')

/-- values still to be visited on the layer of the innermost cursor -/
def todo (cfg : RowCfg S α) (ch : List α → Ty → List α) (st : RowSt S α) (c : Cur α)
    (p : TPath α) : List α :=
  c.next.rem ++ ((cfg.types p.length).drop (st.used p.length + 1)).flatMap (ch (TPath.pref p))

theorem todo_fresh {st : RowSt S α} {p : TPath α} {τ : Ty} (hf : p.full)
    (h0 : st.used p.length = 0) (hτ : (cfg.types p.length)[0]? = some τ) :
    todo cfg ch st (.fresh (ch (TPath.pref p) τ)) p = kidsAt cfg.types ch (TPath.pref p) := by
  rw [todo, kidsAt, length_pref hf, h0]
  cases ht : cfg.types p.length with
  | nil => rw [ht] at hτ; simp at hτ
  | cons x l =>
    rw [ht] at hτ
    simp only [List.getElem?_cons_zero, Option.some.injEq] at hτ
    subst hτ
    simp [Cur.next, Cur.rem]

/-- moving to the next type does not change what remains -/
theorem todo_next {st st₁ : RowSt S α} {p : TPath α} {c : Cur α} {τ' : Ty}
    (hc : c.next.rem = []) (hτ : (cfg.types p.length)[st.used p.length + 1]? = some τ')
    (hu : st₁.used p.length = st.used p.length + 1) :
    todo cfg ch st₁ (.fresh (ch (TPath.pref p) τ')) p = todo cfg ch st c p := by
  obtain ⟨hlt, hget⟩ := List.getElem?_eq_some_iff.mp hτ
  rw [todo, todo, hc, hu, List.drop_eq_getElem_cons hlt, hget]
  simp [Cur.next, Cur.rem]

theorem todo_end {st : RowSt S α} {p : TPath α} {c : Cur α} (hc : c.next.rem = [])
    (h : st.used p.length + 1 = (cfg.types p.length).length) : todo cfg ch st c p = [] := by
  rw [todo, hc, h]; simp

theorem todo_cons {st : RowSt S α} {p : TPath α} {c : Cur α} {a : α} {l : List α}
    (hc : c.next.rem = a :: l) : todo cfg ch st c p = a :: todo cfg ch st (.at (a :: l)) p := by
  rw [todo, todo, hc]; simp [Cur.next, Cur.rem]

theorem todo_congr {st st₁ : RowSt S α} {p : TPath α} {c : Cur α}
    (h : st₁.used p.length = st.used p.length) : todo cfg ch st₁ c p = todo cfg ch st c p := by
  rw [todo, todo, h]

/-- Hypotheses about the configuration. -/
structure OK (cfg : RowCfg S α) (ch : List α → Ty → List α) (R : S → TPath α → Prop) : Prop where
  sim : Simulates cfg.ops cfg.arity ch R
  ex : cfg.existential ≤ cfg.arity
  cols : cfg.usedCols ≤ cfg.arity
  pos : 0 < cfg.usedCols
  cut : cfg.arity - cfg.existential ≤ cfg.usedCols
  ne : ∀ k < cfg.arity, cfg.types k ≠ []
  nodup : ∀ p, (kidsAt cfg.types ch p).Nodup


theorem Good.lt {st : RowSt S α} {τ : Ty} {c : Cur α} {p : TPath α}
    (hG : Good cfg R st ((τ, c) :: p)) : st.used p.length < (cfg.types p.length).length := by
  have ht := hG.used.1
  by_contra h
  rw [List.getElem?_eq_none (by omega)] at ht; cases ht

theorem leaves_succ (types : Nat → List Ty) (ch : List α → Ty → List α) (n : Nat) (p : List α) :
    leaves types ch (n + 1) p = (kidsAt types ch p).flatMap fun a => leaves types ch n (p ++ [a]) :=
  dfs_succ _ _ _ _ _

/-- The existential layers: either nothing is found, or the first row is returned and the scan is
back on the last layer that is not existential. -/
theorem exist_spec (hO : OK cfg ch R) (m : Nat) :
    ∀ (fuel : Nat) (st : RowSt S α) (τ : Ty) (c : Cur α) (p : TPath α),
      (cfg.types p.length).length - st.used p.length + (todo cfg ch st c p).length ≤ fuel →
      Good cfg R st ((τ, c) :: p) → p.full → p.length + (m + 1) = cfg.arity →
      cfg.arity - cfg.existential ≤ p.length →
      (∀ K, K = (todo cfg ch st c p).flatMap
        (fun a => leaves cfg.types ch m (TPath.pref p ++ [a])) →
      (K = [] → ∃ st', Steps cfg st [] st' ∧ Good cfg R st' p ∧
        st'.change = min p.length st.change ∧ st'.row = st.row ∧ st'.single = st.single ∧
        (∀ k < p.length, st'.used k = st.used k)) ∧
      (∀ r, K.head? = some r → ∃ st₀ st₁, Steps cfg st [] st₀ ∧ cfg.ops.depth st₀.scan ≠ 0 ∧
        cfg.iter st₀ = some (true, st₁) ∧
        Good cfg R st₁ (p.drop (p.length - (cfg.arity - cfg.existential))) ∧
        st₁.change = min p.length st.change ∧ st₁.row = r.take cfg.usedCols ∧
        st₁.single = .at ∧ (∀ k < p.length, st₁.used k = st.used k))) := by
  induction m with
  | zero =>
    intro fuel
    induction fuel with
    | zero =>
      intro st τ c p hfu hG hf hm hN K hK
      have := hG.lt
      omega
    | succ fuel ih =>
      intro st τ c p hfu hG hf hm hN K hK
      have hlt := hG.lt
      have hd : cfg.ops.depth st.scan ≠ 0 := by rw [(hO.sim.depth _ _ hG.rel).1]; simp
      cases hc : c.next.rem with
      | nil =>
        obtain ⟨st₁, e1, e2, e3, e4, hused, e5⟩ := iter_none hO.sim hG hf hc
        rcases e5 with ⟨e5, e6⟩ | ⟨τ', e5, e6, e7⟩
        · have : K = [] := by rw [hK, todo_end hc e5]; rfl
          refine ⟨fun _ => ⟨st₁, .quiet hd e1 (.refl _), e6, e2, e3, e4, hused⟩, fun r hr => ?_⟩
          rw [this] at hr; cases hr
        · have ht : todo cfg ch st₁ (.fresh (ch (TPath.pref p) τ')) p = todo cfg ch st c p :=
            todo_next hc e5 e6
          obtain ⟨i1, i2⟩ := ih st₁ τ' _ p (by rw [ht]; omega) e7 hf hm hN K (by rw [ht, hK])
          constructor
          · intro h0
            obtain ⟨st', a1, a2, a3, a4, a5, a6⟩ := i1 h0
            exact ⟨st', .quiet hd e1 a1, a2, by rw [a3, e2]; simp, by rw [a4, e3], by rw [a5, e4],
              fun k hk => by rw [a6 k hk, hused k hk]⟩
          · intro r hr
            obtain ⟨st0, st', a1, a2, a3, a4, a5, a6, a7, a8⟩ := i2 r hr
            exact ⟨st0, st', .quiet hd e1 a1, a2, a3, a4, by rw [a5, e2]; simp, a6, a7,
              fun k hk => by rw [a8 k hk, hused k hk]⟩
      | cons a l =>
        obtain ⟨st₁, e1, e2, e3, e4, e5, e6⟩ := iter_emit hO.sim hO.ex hO.cols hG hf hc hm
        have hK' : K = (TPath.pref p ++ [a]) :: (todo cfg ch st (.at (a :: l)) p).flatMap
            (fun a => leaves cfg.types ch 0 (TPath.pref p ++ [a])) := by
          rw [hK, todo_cons hc]; simp [leaves, dfs]
        refine ⟨fun h0 => (by rw [hK'] at h0; cases h0), fun r hr => ?_⟩
        rw [hK'] at hr
        simp only [List.head?_cons, Option.some.injEq] at hr
        subst hr
        refine ⟨st, st₁, .refl _, hd, e1, ?_, e2, e3, e4, fun k _ => by rw [e5]⟩
        have : cfg.existential = (p.length - (cfg.arity - cfg.existential)) + 1 := by
          have := hO.ex; omega
        rw [this, List.drop_succ_cons] at e6
        exact e6
  | succ m ihm =>
    intro fuel
    induction fuel with
    | zero =>
      intro st τ c p hfu hG hf hm hN K hK
      have := hG.lt
      omega
    | succ fuel ih =>
      intro st τ c p hfu hG hf hm hN K hK
      have hlt := hG.lt
      have hd : cfg.ops.depth st.scan ≠ 0 := by rw [(hO.sim.depth _ _ hG.rel).1]; simp
      cases hc : c.next.rem with
      | nil =>
        obtain ⟨st₁, e1, e2, e3, e4, hused, e5⟩ := iter_none hO.sim hG hf hc
        rcases e5 with ⟨e5, e6⟩ | ⟨τ', e5, e6, e7⟩
        · have : K = [] := by rw [hK, todo_end hc e5]; rfl
          refine ⟨fun _ => ⟨st₁, .quiet hd e1 (.refl _), e6, e2, e3, e4, hused⟩, fun r hr => ?_⟩
          rw [this] at hr; cases hr
        · have ht : todo cfg ch st₁ (.fresh (ch (TPath.pref p) τ')) p = todo cfg ch st c p :=
            todo_next hc e5 e6
          obtain ⟨i1, i2⟩ := ih st₁ τ' _ p (by rw [ht]; omega) e7 hf hm hN K (by rw [ht, hK])
          constructor
          · intro h0
            obtain ⟨st', a1, a2, a3, a4, a5, a6⟩ := i1 h0
            exact ⟨st', .quiet hd e1 a1, a2, by rw [a3, e2]; simp, by rw [a4, e3], by rw [a5, e4],
              fun k hk => by rw [a6 k hk, hused k hk]⟩
          · intro r hr
            obtain ⟨st0, st', a1, a2, a3, a4, a5, a6, a7, a8⟩ := i2 r hr
            exact ⟨st0, st', .quiet hd e1 a1, a2, a3, a4, by rw [a5, e2]; simp, a6, a7,
              fun k hk => by rw [a8 k hk, hused k hk]⟩
      | cons a l =>
        obtain ⟨τ₀, hτ₀⟩ : ∃ τ₀, (cfg.types (p.length + 1))[0]? = some τ₀ := by
          have := hO.ne (p.length + 1) (by omega)
          cases h : cfg.types (p.length + 1) with
          | nil => exact absurd h this
          | cons x l => exact ⟨x, rfl⟩
        obtain ⟨st₁, e1, e2, e3, e4, e5, e6, e7⟩ := iter_down hO.sim hG hf hc (by omega) hτ₀
        have hf' : TPath.full ((τ, .at (a :: l)) :: p) := GScan.full_cons.mpr ⟨rfl, hf⟩
        have hp' : TPath.pref ((τ, .at (a :: l)) :: p) = TPath.pref p ++ [a] :=
          GScan.pref_cons rfl
        have ht : todo cfg ch st₁ (.fresh (ch (TPath.pref p ++ [a]) τ₀)) ((τ, .at (a :: l)) :: p) =
            kidsAt cfg.types ch (TPath.pref p ++ [a]) := by
          have := todo_fresh (cfg := cfg) (ch := ch) (st := st₁) hf' e5 hτ₀
          rwa [hp'] at this
        obtain ⟨i1, i2⟩ := ihm _ st₁ τ₀ _ ((τ, .at (a :: l)) :: p) le_rfl e7 hf'
          (by simp; omega) (by simp; omega) _ rfl
        rw [ht, hp', ← leaves_succ] at i1 i2
        have hK' : K = leaves cfg.types ch (m + 1) (TPath.pref p ++ [a]) ++
            (todo cfg ch st (.at (a :: l)) p).flatMap
            (fun a => leaves cfg.types ch (m + 1) (TPath.pref p ++ [a])) := by
          rw [hK, todo_cons hc]; rfl
        cases hL : leaves cfg.types ch (m + 1) (TPath.pref p ++ [a]) with
        | nil =>
          obtain ⟨st₂, b1, b2, b3, b4, b5, b6⟩ := i1 hL
          have hu2 : st₂.used p.length = st.used p.length := by
            rw [b6 _ (by simp), e6 _ (by omega)]
          have ht2 : todo cfg ch st₂ (.at (a :: l)) p = todo cfg ch st (.at (a :: l)) p :=
            todo_congr hu2
          have hlen : (todo cfg ch st c p).length =
              (todo cfg ch st (.at (a :: l)) p).length + 1 := by rw [todo_cons hc]; rfl
          obtain ⟨j1, j2⟩ := ih st₂ τ (.at (a :: l)) p (by rw [ht2, hu2]; omega) b2 hf hm hN K
            (by rw [hK', hL, ht2]; rfl)
          constructor
          · intro h0
            obtain ⟨st', a1, a2, a3, a4, a5, a6⟩ := j1 h0
            exact ⟨st', .quiet hd e1 (b1.trans a1), a2, by rw [a3, b3, e2]; simp,
              by rw [a4, b4, e3], by rw [a5, b5, e4],
              fun k hk => by rw [a6 k hk, b6 k (by simp; omega), e6 k (by omega)]⟩
          · intro r hr
            obtain ⟨st0, st', a1, a2, a3, a4, a5, a6, a7, a8⟩ := j2 r hr
            exact ⟨st0, st', .quiet hd e1 (b1.trans a1), a2, a3, a4, by rw [a5, b3, e2]; simp,
              a6, a7, fun k hk => by rw [a8 k hk, b6 k (by simp; omega), e6 k (by omega)]⟩
        | cons r0 L =>
          refine ⟨fun h0 => (by rw [hK', hL] at h0; cases h0), fun r hr => ?_⟩
          rw [hK', hL] at hr
          simp only [List.cons_append, List.head?_cons, Option.some.injEq] at hr
          subst hr
          obtain ⟨st0, st', a1, a2, a3, a4, a5, a6, a7, a8⟩ := i2 r0 (by rw [hL]; rfl)
          refine ⟨st0, st', .quiet hd e1 a1, a2, a3, ?_, by rw [a5, e2]; simp, a6, a7,
            fun k hk => by rw [a8 k (by simp; omega), e6 k (by omega)]⟩
          have : ((τ, Cur.at (a :: l)) :: p).length - (cfg.arity - cfg.existential) =
            (p.length - (cfg.arity - cfg.existential)) + 1 := by simp; omega
          rw [this, List.drop_succ_cons] at a4
          exact a4


theorem leaves_length {types : Nat → List Ty} {n : Nat} {p r : List α}
    (h : r ∈ leaves types ch n p) : r.length = p.length + n := by
  induction n generalizing p with
  | zero => simp [leaves, dfs] at h; subst h; simp
  | succ n ih =>
    rw [leaves_succ, List.mem_flatMap] at h
    obtain ⟨a, _, h⟩ := h
    rw [ih h]; simp; omega

/-- what the search returns at a node whose remaining layers are existential -/
def gE (types : Nat → List Ty) (ch : List α → Ty → List α) (e : Nat) (q : List α) :
    List (List α × List α) := ((leaves types ch e q).head?.map fun r => (q, r)).toList

theorem dfs_prefix {types : Nat → List Ty} {n e : Nat} {p : List α} {x : List α × List α}
    (h : x ∈ dfs types ch (gE types ch e) n p) : p <+: x.1 := by
  induction n generalizing p with
  | zero =>
    simp only [dfs, gE, Option.mem_toList, Option.mem_def, Option.map_eq_some_iff] at h
    obtain ⟨r, _, rfl⟩ := h
    exact List.prefix_rfl
  | succ n ih =>
    rw [dfs_succ, List.mem_flatMap] at h
    obtain ⟨a, _, h⟩ := h
    exact (List.prefix_append p [a]).trans (ih h)

theorem cpl_append (p : List α) {a b : α} (hab : a ≠ b) (l m : List α) :
    cpl (p ++ a :: l) (p ++ b :: m) = p.length := by
  induction p with
  | nil => simp [cpl, hab]
  | cons x p ih => simp [cpl, ih]

theorem cpl_of_prefix {p x y : List α} {a b : α} (hab : a ≠ b) (hx : p ++ [a] <+: x)
    (hy : p ++ [b] <+: y) : cpl x y = p.length := by
  obtain ⟨l, rfl⟩ := hx
  obtain ⟨m, rfl⟩ := hy
  simp only [List.append_assoc, List.cons_append, List.nil_append]
  exact cpl_append p hab l m

theorem attachFrom_append {A B : List (List α × List α)} {ℓ : Nat} {q : List α}
    (h0 : ∀ y ∈ B, cpl q y.1 = ℓ) (h : ∀ x ∈ A, ∀ y ∈ B, cpl x.1 y.1 = ℓ) :
    attachFrom q (A ++ B) = attachFrom q A ++ attach ℓ B := by
  induction A generalizing q with
  | nil =>
    cases B with
    | nil => rfl
    | cons y B => simp [attachFrom, attach, h0 y (by simp)]
  | cons x A ih =>
    simp only [List.cons_append, attachFrom]
    rw [ih (h x (by simp)) (fun z hz => h z (by simp [hz]))]

theorem attach_append {A B : List (List α × List α)} {c ℓ : Nat} (hA : A ≠ [])
    (h : ∀ x ∈ A, ∀ y ∈ B, cpl x.1 y.1 = ℓ) : attach c (A ++ B) = attach c A ++ attach ℓ B := by
  cases A with
  | nil => exact absurd rfl hA
  | cons x A =>
    show (x.1, x.2, c) :: attachFrom x.1 (A ++ B) = _
    rw [attachFrom_append (h x (by simp)) (fun z hz => h z (by simp [hz]))]
    rfl

/-- the row and the change that are returned -/
def out (cfg : RowCfg S α) (x : List α × List α × Nat) : List α × Nat :=
  (x.2.1.take cfg.usedCols, x.2.2)

/-- visiting everything below one value -/
def Child (cfg : RowCfg S α) (ch : List α → Ty → List α) (R : S → TPath α → Prop) (n : Nat) : Prop :=
  ∀ (st : RowSt S α) (τ : Ty) (c : Cur α) (p : TPath α) (a : α) (l : List α),
    Good cfg R st ((τ, c) :: p) → p.full → p.length + (n + 1) = cfg.arity - cfg.existential →
    c.next.rem = a :: l →
    ∃ st', Steps cfg st ((attach (min p.length st.change)
        (dfs cfg.types ch (gE cfg.types ch cfg.existential) n (TPath.pref p ++ [a]))).map (out cfg)) st' ∧
      Good cfg R st' ((τ, .at (a :: l)) :: p) ∧
      (dfs cfg.types ch (gE cfg.types ch cfg.existential) n (TPath.pref p ++ [a]) = [] →
        st'.change = min p.length st.change) ∧
      (dfs cfg.types ch (gE cfg.types ch cfg.existential) n (TPath.pref p ++ [a]) ≠ [] →
        p.length ≤ st'.change) ∧
      (∀ k < p.length + 1, st'.used k = st.used k)

theorem child_zero (hO : OK cfg ch R) : Child cfg ch R 0 := by
  intro st τ c p a l hG hf hn hc
  have hd : cfg.ops.depth st.scan ≠ 0 := by rw [(hO.sim.depth _ _ hG.rel).1]; simp
  have hlp := length_pref hf
  have hcut := hO.cut
  have hex := hO.ex
  have hcols := hO.cols
  by_cases he : cfg.existential = 0
  · obtain ⟨st₁, e1, e2, e3, e4, e5, e6⟩ := iter_emit hO.sim hO.ex hO.cols hG hf hc (by omega)
    have hdfs : dfs cfg.types ch (gE cfg.types ch cfg.existential) 0 (TPath.pref p ++ [a]) =
        [(TPath.pref p ++ [a], TPath.pref p ++ [a])] := by simp [dfs, gE, he, leaves]
    rw [hdfs]
    refine ⟨{ st₁ with change := cfg.usedCols - 1 }, ?_, ?_, by simp, fun _ => by simp; omega,
      fun k _ => by simp [e5]⟩
    · have := Steps.emit (cfg := cfg) hd e1 (by rw [e3]; simp [hlp]; omega) e4 ?_ (.refl _)
      · simpa [attach, attachFrom, out, e2, e3] using this
      · have := (hO.sim.depth _ _ e6.rel).1
        rw [this, he]; simp
    · rw [he] at e6; exact ⟨e6.rel, e6.used⟩
  · obtain ⟨m, hm⟩ : ∃ m, cfg.existential = m + 1 := ⟨cfg.existential - 1, by omega⟩
    obtain ⟨τ₀, hτ₀⟩ : ∃ τ₀, (cfg.types (p.length + 1))[0]? = some τ₀ := by
      have := hO.ne (p.length + 1) (by omega)
      cases h : cfg.types (p.length + 1) with
      | nil => exact absurd h this
      | cons x l => exact ⟨x, rfl⟩
    obtain ⟨st₁, e1, e2, e3, e4, e5, e6, e7⟩ := iter_down hO.sim hG hf hc (by omega) hτ₀
    have hf' : TPath.full ((τ, .at (a :: l)) :: p) := GScan.full_cons.mpr ⟨rfl, hf⟩
    have hp' : TPath.pref ((τ, .at (a :: l)) :: p) = TPath.pref p ++ [a] :=
      GScan.pref_cons rfl
    have ht : todo cfg ch st₁ (.fresh (ch (TPath.pref p ++ [a]) τ₀)) ((τ, .at (a :: l)) :: p) =
        kidsAt cfg.types ch (TPath.pref p ++ [a]) := by
      have := todo_fresh (cfg := cfg) (ch := ch) (st := st₁) hf' e5 hτ₀
      rwa [hp'] at this
    obtain ⟨i1, i2⟩ := exist_spec hO m _ st₁ τ₀ _ ((τ, .at (a :: l)) :: p) le_rfl e7 hf'
      (by simp; omega) (by simp; omega) _ rfl
    rw [ht, hp', ← leaves_succ, ← hm] at i1 i2
    cases hL : leaves cfg.types ch cfg.existential (TPath.pref p ++ [a]) with
    | nil =>
      have hdfs : dfs cfg.types ch (gE cfg.types ch cfg.existential) 0 (TPath.pref p ++ [a]) = [] := by
        simp [dfs, gE, hL]
      rw [hdfs]
      obtain ⟨st', a1, a2, a3, a4, a5, a6⟩ := i1 hL
      exact ⟨st', .quiet hd e1 a1, a2, fun _ => by rw [a3, e2]; simp, fun h => absurd rfl h,
        fun k hk => by rw [a6 k (by simp; omega), e6 k hk]⟩
    | cons r L =>
      have hdfs : dfs cfg.types ch (gE cfg.types ch cfg.existential) 0 (TPath.pref p ++ [a]) =
          [(TPath.pref p ++ [a], r)] := by simp [dfs, gE, hL]
      rw [hdfs]
      obtain ⟨st0, st', a1, a2, a3, a4, a5, a6, a7, a8⟩ := i2 r (by rw [hL]; rfl)
      have hrl : r.length = cfg.arity := by
        have := leaves_length (ch := ch) (types := cfg.types) (n := cfg.existential)
          (p := TPath.pref p ++ [a]) (r := r) (by rw [hL]; simp)
        rw [this]; simp [hlp]; omega
      have hdr : ((τ, Cur.at (a :: l)) :: p).length - (cfg.arity - cfg.existential) = 0 := by
        simp; omega
      rw [hdr, List.drop_zero] at a4
      refine ⟨{ st' with change := cfg.usedCols - 1 }, .quiet hd e1 ?_, ⟨a4.rel, a4.used⟩, by simp,
        fun _ => by simp; omega, fun k hk => by simp [a8 k (by simp; omega), e6 k hk]⟩
      have := Steps.emit (cfg := cfg) a2 a3 (by rw [a6]; simp [hrl]; omega) a7 ?_ (.refl _)
      · have h2 := a1.trans this
        simpa [attach, attachFrom, out, a5, a6, e2] using h2
      · rw [(hO.sim.depth _ _ a4.rel).1]; simp

/-- visiting the remaining values of a layer that is not existential -/
theorem layer_spec (hO : OK cfg ch R) (n : Nat) (hC : Child cfg ch R n) :
    ∀ (fuel : Nat) (st : RowSt S α) (τ : Ty) (c : Cur α) (p : TPath α),
      (cfg.types p.length).length - st.used p.length + (todo cfg ch st c p).length ≤ fuel →
      Good cfg R st ((τ, c) :: p) → p.full → p.length + (n + 1) = cfg.arity - cfg.existential →
      (todo cfg ch st c p).Nodup →
      ∀ K, K = (todo cfg ch st c p).flatMap
        (fun a => dfs cfg.types ch (gE cfg.types ch cfg.existential) n (TPath.pref p ++ [a])) →
      ∃ st', Steps cfg st ((attach (min p.length st.change) K).map (out cfg)) st' ∧
        Good cfg R st' p ∧ (K = [] → st'.change = min p.length st.change) ∧
        (K ≠ [] → p.length ≤ st'.change) ∧ (∀ k < p.length, st'.used k = st.used k) := by
  intro fuel
  induction fuel with
  | zero =>
    intro st τ c p hfu hG hf hn hnd K hK
    have := hG.lt
    omega
  | succ fuel ih =>
    intro st τ c p hfu hG hf hn hnd K hK
    have hlt := hG.lt
    have hd : cfg.ops.depth st.scan ≠ 0 := by rw [(hO.sim.depth _ _ hG.rel).1]; simp
    cases hc : c.next.rem with
    | nil =>
      obtain ⟨st₁, e1, e2, e3, e4, hused, e5⟩ := iter_none hO.sim hG hf hc
      rcases e5 with ⟨e5, e6⟩ | ⟨τ', e5, e6, e7⟩
      · have : K = [] := by rw [hK, todo_end hc e5]; rfl
        subst this
        exact ⟨st₁, .quiet hd e1 (.refl _), e6, fun _ => e2, fun h => absurd rfl h, hused⟩
      · have ht : todo cfg ch st₁ (.fresh (ch (TPath.pref p) τ')) p = todo cfg ch st c p :=
          todo_next hc e5 e6
        obtain ⟨st', a1, a2, a3, a4, a5⟩ := ih st₁ τ' _ p (by rw [ht]; omega) e7 hf hn
          (by rw [ht]; exact hnd) K (by rw [ht, hK])
        have hm : min p.length st₁.change = min p.length st.change := by rw [e2]; simp
        rw [hm] at a1 a3
        exact ⟨st', .quiet hd e1 a1, a2, a3, a4, fun k hk => by rw [a5 k hk, hused k hk]⟩
    | cons a l =>
      obtain ⟨st₁, b1, b2, b3, b4, b5⟩ := hC st τ c p a l hG hf hn hc
      have hu : st₁.used p.length = st.used p.length := b5 _ (by omega)
      have ht : todo cfg ch st₁ (.at (a :: l)) p = todo cfg ch st (.at (a :: l)) p := todo_congr hu
      have htc := todo_cons (cfg := cfg) (ch := ch) (st := st) (p := p) hc
      have hlen : (todo cfg ch st c p).length = (todo cfg ch st (.at (a :: l)) p).length + 1 := by
        rw [htc]; rfl
      rw [htc] at hnd
      obtain ⟨hna, hnd'⟩ := List.nodup_cons.mp hnd
      obtain ⟨st', a1, a2, a3, a4, a5⟩ := ih st₁ τ (.at (a :: l)) p (by rw [ht, hu]; omega) b2 hf hn
        (by rw [ht]; exact hnd') _ rfl
      rw [ht] at a1 a3 a4
      rw [htc, List.flatMap_cons] at hK
      by_cases h0 : dfs cfg.types ch (gE cfg.types ch cfg.existential) n (TPath.pref p ++ [a]) = []
      · rw [h0] at b1 hK
        have hm : min p.length st₁.change = min p.length st.change := by rw [b3 h0]; simp
        rw [List.nil_append] at hK
        rw [hm, ← hK] at a1 a3
        rw [← hK] at a4
        exact ⟨st', b1.trans a1, a2, a3, a4,
          fun k hk => by rw [a5 k hk, b5 k (by omega)]⟩
      · have hm : min p.length st₁.change = p.length := by have := b4 h0; omega
        rw [hm] at a1 a3
        have hK2 : K ≠ [] := by rw [hK]; simp [h0]
        refine ⟨st', ?_, a2, fun h => absurd h hK2, fun _ => ?_,
          fun k hk => by rw [a5 k hk, b5 k (by omega)]⟩
        · have := b1.trans a1
          rw [hK, attach_append h0 (ℓ := p.length), List.map_append]
          · exact this
          · intro x hx y hy
            obtain ⟨b, hb, hy⟩ := List.mem_flatMap.mp hy
            have hab : a ≠ b := by rintro rfl; exact hna hb
            rw [cpl_of_prefix hab (dfs_prefix hx) (dfs_prefix hy), length_pref hf]
        · by_cases hz : (todo cfg ch st (.at (a :: l)) p).flatMap
            (fun a => dfs cfg.types ch (gE cfg.types ch cfg.existential) n (TPath.pref p ++ [a])) = []
          · rw [a3 hz]
          · exact a4 hz

theorem child_spec (hO : OK cfg ch R) (n : Nat) : Child cfg ch R n := by
  induction n with
  | zero => exact child_zero hO
  | succ n ih =>
    intro st τ c p a l hG hf hn hc
    have hd : cfg.ops.depth st.scan ≠ 0 := by rw [(hO.sim.depth _ _ hG.rel).1]; simp
    obtain ⟨τ₀, hτ₀⟩ : ∃ τ₀, (cfg.types (p.length + 1))[0]? = some τ₀ := by
      have := hO.ne (p.length + 1) (by omega)
      cases h : cfg.types (p.length + 1) with
      | nil => exact absurd h this
      | cons x l => exact ⟨x, rfl⟩
    obtain ⟨st₁, e1, e2, e3, e4, e5, e6, e7⟩ := iter_down hO.sim hG hf hc (by omega) hτ₀
    have hf' : TPath.full ((τ, .at (a :: l)) :: p) := GScan.full_cons.mpr ⟨rfl, hf⟩
    have hp' : TPath.pref ((τ, .at (a :: l)) :: p) = TPath.pref p ++ [a] :=
      GScan.pref_cons rfl
    have ht : todo cfg ch st₁ (.fresh (ch (TPath.pref p ++ [a]) τ₀)) ((τ, .at (a :: l)) :: p) =
        kidsAt cfg.types ch (TPath.pref p ++ [a]) := by
      have := todo_fresh (cfg := cfg) (ch := ch) (st := st₁) hf' e5 hτ₀
      rwa [hp'] at this
    obtain ⟨st', a1, a2, a3, a4, a5⟩ := layer_spec hO n ih _ st₁ τ₀ _ ((τ, .at (a :: l)) :: p)
      le_rfl e7 hf' (by simp; omega) (by rw [ht]; exact hO.nodup _) _ rfl
    rw [ht, hp', ← dfs_succ] at a1 a3 a4
    have hm : min ((τ, Cur.at (a :: l)) :: p).length st₁.change = min p.length st.change := by
      rw [e2]; simp
    rw [hm] at a1 a3
    exact ⟨st', .quiet hd e1 a1, a2, a3, fun h => by have := a4 h; simp at this; omega,
      fun k hk => by rw [a5 k (by simpa using hk), e6 k hk]⟩

/-! ### From iterations to calls -/

theorem loop_quiet {st st₁ : RowSt S α} (hd : cfg.ops.depth st.scan ≠ 0)
    (h : cfg.iter st = some (false, st₁)) : cfg.loop st = cfg.loop st₁ := by
  rw [loop, if_neg hd, h]; rfl

theorem loop_emit {st st₁ : RowSt S α} (hd : cfg.ops.depth st.scan ≠ 0)
    (h : cfg.iter st = some (true, st₁)) : cfg.loop st = some st₁ := by
  rw [loop, if_neg hd, h]; rfl

theorem loop_steps {st st₁ : RowSt S α} (h : Steps cfg st [] st₁) : cfg.loop st = cfg.loop st₁ := by
  generalize he : ([] : List (List α × Nat)) = es at h
  induction h with
  | refl st => rfl
  | quiet hd hi _ ih => rw [loop_quiet hd hi, ih he]
  | emit => cases he

/-- what follows after entering the first layer -/
def cont (cfg : RowCfg S α) (st : RowSt S α) : Option (List (List α × Nat)) := do
  let st ← cfg.loop st
  match cfg.get st with
  | none => return []
  | some r =>
    let rest ← cfg.collect st
    return r :: rest

theorem collect_cont (hne : cfg.empty = false) {st : RowSt S α}
    (hs : ¬ (cfg.existential = cfg.arity ∧ st.single = .at)) (hd : cfg.ops.depth st.scan ≠ 0)
    (hr : st.row.length = cfg.usedCols) (hp : 0 < cfg.usedCols) :
    cfg.collect st = cont cfg { st with change := cfg.usedCols - 1 } := by
  rw [collect, advance, hne, if_neg (by simp), if_neg hs]
  simp only [enter, if_neg hd, Option.bind_eq_bind, Option.bind_some, usub, hr, cont]
  rw [if_pos (by omega)]
  rfl

theorem cont_steps (hne : cfg.empty = false) (hp : 0 < cfg.usedCols)
    (hE : cfg.existential ≠ cfg.arity) {st st' : RowSt S α} {es : List (List α × Nat)}
    (h : Steps cfg st es st') (hd' : cfg.ops.depth st'.scan = 0) : cont cfg st = some es := by
  induction h with
  | refl st =>
    rw [cont, loop, if_pos hd']
    simp [get, hd', hE]
  | quiet hd hi _ ih =>
    rw [cont, loop_quiet hd hi]
    exact ih hd'
  | @emit st st₁ es st₂ hd hi hr hs h0 _ ih =>
    rw [cont, loop_emit hd hi]
    have h1 : cfg.get st₁ = some (st₁.row, st₁.change) := by rw [get, if_pos (.inl h0)]
    simp only [Option.bind_eq_bind, Option.bind_some, h1]
    rw [collect_cont hne (fun h => hE h.1) (by omega) hr hp, ih hd']
    rfl


theorem dfs_empty {β : Type} {types : Nat → List Ty} {g : List α → List β} {k : Nat}
    (hk : types k = []) (n : Nat) (p : List α) (h1 : p.length ≤ k) (h2 : k < p.length + n) :
    dfs types ch g n p = [] := by
  induction n generalizing p with
  | zero => omega
  | succ n ih =>
    rw [dfs]
    by_cases h : p.length = k
    · rw [h, hk]; rfl
    · simp only [List.flatMap_eq_nil_iff]
      intro τ _ a _
      exact ih _ (by simp; omega) (by simp; omega)

/-- `dfs` of an inner search is a longer search -/
theorem dfs_leaves {types : Nat → List Ty} {n m : Nat} {p : List α} :
    dfs types ch (fun q => leaves types ch m q) n p = leaves types ch (n + m) p := by
  induction n generalizing p with
  | zero => simp [dfs]
  | succ n ih =>
    rw [dfs_succ, show n + 1 + m = (n + m) + 1 by omega, leaves_succ]
    congr 1
    funext a
    exact ih

/-- the path on which a fresh row scan starts -/
theorem enter_spec (hO : OK cfg ch R) {s : S} (hs : R s []) (d : α) (ha : 0 < cfg.arity) :
    ∃ st τ, cfg.enter (cfg.new s d) = some st ∧ st.row.length = cfg.usedCols ∧
      st.single = .before ∧ Good cfg R st [(τ, .fresh (ch [] τ))] ∧
      ∀ c, todo cfg ch { st with change := c } (.fresh (ch [] τ)) [] = kidsAt cfg.types ch [] := by
  obtain ⟨τ₀, hτ₀⟩ : ∃ τ₀, (cfg.types 0)[0]? = some τ₀ := by
    have := hO.ne 0 ha
    cases h : cfg.types 0 with
    | nil => exact absurd h this
    | cons x l => exact ⟨x, rfl⟩
  obtain ⟨s1, e1, e2⟩ := hO.sim.down _ _ τ₀ hs (by intro e he; cases he) ha
  have hd := (hO.sim.depth _ _ hs).1
  refine ⟨⟨s1, Function.update (fun _ => 0) 0 0, .before, List.replicate cfg.usedCols d, 0⟩, τ₀, ?_,
    by simp, rfl, ⟨e2, ?_, trivial⟩, fun c => ?_⟩
  · simp only [enter, new, hd, List.length_nil, if_true, downFirst, hτ₀, Option.bind_eq_bind,
      Option.bind_some, e1]
    rfl
  · simpa using hτ₀
  · exact todo_fresh (cfg := cfg) (p := []) (by intro e he; cases he) (by simp) hτ₀

/-- **Row scans enumerate the rows of the tree**, from left to right and each once, with the number
of leading columns shared with the previous row. -/
theorem collect_spec (hO : OK cfg ch R) {s : S} (hs : R s []) (d : α) (ha : 0 < cfg.arity) :
    cfg.collect (cfg.new s d) = some ((attach 0
      (extendable cfg.types ch (cfg.arity - cfg.existential) cfg.existential)).map (out cfg)) := by
  have hne : cfg.empty = false := by
    simp only [empty, Bool.or_eq_false_iff, beq_eq_false_iff_ne, ne_eq, List.any_eq_false,
      List.mem_range, List.isEmpty_iff]
    exact ⟨by omega, fun k hk => hO.ne k hk⟩
  obtain ⟨st, τ, e1, e2, e3, e4, e5⟩ := enter_spec hO hs d ha
  have hpos := hO.pos
  have hfull : TPath.full ([] : TPath α) := by intro e he; cases he
  have hcoll : cfg.collect (cfg.new s d) = cont cfg { st with change := cfg.usedCols - 1 } := by
    rw [collect, advance, hne, if_neg (by simp), if_neg (by simp [new]), e1]
    simp only [Option.bind_eq_bind, Option.bind_some, usub, e2, cont]
    rw [if_pos (by omega)]
    rfl
  have hG : Good cfg R { st with change := cfg.usedCols - 1 } [(τ, .fresh (ch [] τ))] :=
    ⟨e4.rel, e4.used⟩
  rw [hcoll]
  by_cases hN : cfg.existential = cfg.arity
  · obtain ⟨i1, i2⟩ := exist_spec hO (cfg.arity - 1) _ { st with change := cfg.usedCols - 1 } τ _ []
      le_rfl hG hfull (by simp; omega) (by simp [hN]) _ rfl
    have hp : TPath.pref ([] : TPath α) = [] := rfl
    rw [e5, hp, show (fun a => leaves cfg.types ch (cfg.arity - 1) ([] ++ [a])) =
      fun a => leaves cfg.types ch (cfg.arity - 1) ([] ++ [a]) from rfl, ← leaves_succ,
      show cfg.arity - 1 + 1 = cfg.existential by omega] at i1 i2
    have hext : extendable cfg.types ch (cfg.arity - cfg.existential) cfg.existential =
        gE cfg.types ch cfg.existential [] := by
      rw [hN, Nat.sub_self, ← hN]; rfl
    rw [hext]
    cases hL : leaves cfg.types ch cfg.existential [] with
    | nil =>
      obtain ⟨st', a1, a2, a3, a4, a5, a6⟩ := i1 hL
      have hd' := (hO.sim.depth _ _ a2.rel).1
      rw [cont, loop_steps a1, loop, if_pos (by simpa using hd')]
      have hs : st'.single = .before := by rw [a5]; exact e3
      simp [get, hd', hs, gE, hL, attach]
    | cons r L =>
      obtain ⟨st0, st', a1, a2, a3, a4, a5, a6, a7, a8⟩ := i2 r (by rw [hL]; rfl)
      simp only [List.length_nil, List.drop_nil] at a4
      have hd' := (hO.sim.depth _ _ a4.rel).1
      rw [cont, loop_steps a1, loop_emit a2 a3]
      have h1 : cfg.get st' = some (st'.row, st'.change) := by
        rw [get, if_pos (.inr ⟨hN, a7⟩)]
      simp only [Option.bind_eq_bind, Option.bind_some, h1]
      rw [collect, advance, hne, if_neg (by simp), if_pos ⟨hN, a7⟩]
      simp [get, hd', gE, hL, attach, attachFrom, out, a6, a5]
  · obtain ⟨n, hn⟩ : ∃ n, cfg.arity - cfg.existential = n + 1 :=
      ⟨cfg.arity - cfg.existential - 1, by have := hO.ex; omega⟩
    obtain ⟨st', a1, a2, _, _, _⟩ := layer_spec hO n (child_spec hO n) _
      { st with change := cfg.usedCols - 1 } τ _ [] le_rfl hG hfull (by simp; omega)
      (by rw [e5]; exact hO.nodup _) _ rfl
    have hp : TPath.pref ([] : TPath α) = [] := rfl
    have hd' := (hO.sim.depth _ _ a2.rel).1
    rw [e5, hp, ← dfs_succ, ← hn, List.length_nil, Nat.zero_min] at a1
    exact cont_steps hne hpos hN a1 hd'

/-- A row scan over a layer without possible types lists nothing. -/
theorem collect_empty {k : Nat} (hk : k < cfg.arity) (ht : cfg.types k = []) {s : S}
    (hd : cfg.ops.depth s = 0) (d : α) : cfg.collect (cfg.new s d) = some [] := by
  have hne : cfg.empty = true := by
    simp only [empty, Bool.or_eq_true, List.any_eq_true, List.mem_range, List.isEmpty_iff]
    exact .inr ⟨k, hk, ht⟩
  rw [collect, advance, hne, if_pos rfl]
  simp [get, new, hd]

/-- both cases together -/
theorem collect_spec' (hS : Simulates cfg.ops cfg.arity ch R) (hE : cfg.existential ≤ cfg.arity)
    (hU : cfg.usedCols ≤ cfg.arity) (h0 : 0 < cfg.usedCols)
    (hcut : cfg.arity - cfg.existential ≤ cfg.usedCols)
    (hnd : ∀ p, (kidsAt cfg.types ch p).Nodup) {s : S} (hs : R s []) (d : α) :
    cfg.collect (cfg.new s d) = some ((attach 0
      (extendable cfg.types ch (cfg.arity - cfg.existential) cfg.existential)).map (out cfg)) := by
  by_cases h : ∀ k < cfg.arity, cfg.types k ≠ []
  · exact collect_spec ⟨hS, hE, hU, h0, hcut, h, hnd⟩ hs d (by omega)
  · push Not at h
    obtain ⟨k, hk, ht⟩ := h
    rw [collect_empty hk ht ((hS.depth _ _ hs).1) d]
    have : extendable cfg.types ch (cfg.arity - cfg.existential) cfg.existential = [] := by
      by_cases hkN : k < cfg.arity - cfg.existential
      · exact dfs_empty ht _ _ (by simp) (by simpa using hkN)
      · have : ∀ n (q : List α), q.length + n = cfg.arity - cfg.existential →
            dfs cfg.types ch (gE cfg.types ch cfg.existential) n q = [] := by
          intro n
          induction n with
          | zero =>
            intro q hq
            have : leaves cfg.types ch cfg.existential q = [] :=
              dfs_empty ht _ _ (by omega) (by omega)
            simp [dfs, gE, this]
          | succ n ih =>
            intro q hq
            rw [dfs_succ, List.flatMap_eq_nil_iff]
            exact fun a _ => ih _ (by simp; omega)
        exact this _ [] (by simp)
    rw [this]; rfl

end RowCfg
end Verif
