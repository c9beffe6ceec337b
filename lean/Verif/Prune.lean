import Verif.TreeRows
import Verif.TrieScanBuild

/-!
# Full trie scans and pruning

Model of the interface `TrieScan` (/repo/nemo-physical/src/tabular/triescan.rs) and of `TrieScanPrune`
(/repo/nemo-physical/src/tabular/operations/prune.rs), which turns a partial trie scan into a full one: it only
stops on complete rows.  Aggregation reads its input in this way.
-/

set_option linter.unusedSimpArgs false
set_option linter.unusedSectionVars false
set_option linter.unusedVariables false

namespace Verif

/-- The interface `TrieScan` (/repo/nemo-physical/src/tabular/triescan.rs:114-132): `advance_on_layer` and
`current_value`; `none` is a panic (or divergence). -/
structure FullOps (S α : Type) where
  advance : S → Nat → Option (Option Nat × S)
  current : S → Nat → Option (α × S)

/-- Position in a full scan of a list of rows. -/
inductive FullPos (α : Type) where
  | start
  | at (z : List α) (rest : List (List α))
  | done

/-- A full scan behaves like a list `L` of rows of length `n`: `advance_on_layer(l)` moves to the next row which differs
from the current one in one of the columns `0, ..., l` and returns the first column in which it differs (for the first
row: 0); `first` is the layer used in the first call. -/
structure FullSim {S α : Type} [DecidableEq α] (ops : FullOps S α) (n : Nat) (L : List (List α)) (first : Nat)
    (R : S → FullPos α → Prop) : Prop where
  length : ∀ s z rs, R s (.at z rs) → z.length = n ∧ z :: rs <:+ L
  first_nil : ∀ s, R s .start → L = [] → ∃ s', ops.advance s first = some (none, s')
  first_cons : ∀ s z rs, R s .start → L = z :: rs → ∃ s', ops.advance s first = some (some 0, s') ∧ R s' (.at z rs)
  next_nil : ∀ s z rs l, R s (.at z rs) → l < n → rs.dropWhile (fun r => decide (r.take (l + 1) = z.take (l + 1))) = [] →
    ∃ s', ops.advance s l = some (none, s') ∧ R s' .done
  next_cons : ∀ s z rs l r rs', R s (.at z rs) → l < n →
    rs.dropWhile (fun r => decide (r.take (l + 1) = z.take (l + 1))) = r :: rs' →
    ∃ s', ops.advance s l = some (some (cpl z r), s') ∧ R s' (.at r rs')
  done : ∀ s l, R s .done → l < n → ∃ s', ops.advance s l = some (none, s') ∧ R s' .done
  current : ∀ s z rs k a, R s (.at z rs) → z[k]? = some a → ∃ s', ops.current s k = some (a, s') ∧ R s' (.at z rs)

/-- The state of `TrieScanPruneState` (prune.rs:112-137) as far as full scans use it: `used k` is
`input_trie_scan_current_type[k]` (the vector has one entry for each layer up to the current one).  The peeked layers are
cleared after each call (prune.rs:658), hence omitted, as are the fields that only matter for partial scans. -/
structure PruneSt (S : Type) where
  scan : S
  init : Bool
  layer : Nat
  used : Nat → Nat

/-- The input of `TrieScanPrune`: operations, arity and possible types of the layers (prune.rs:32-53). -/
structure PruneCfg (S α : Type) where
  ops : TrieOps S α
  arity : Nat
  types : Nat → List Ty

namespace PruneCfg
variable {S α : Type} (cfg : PruneCfg S α)

/-- `TrieScanPrune::new` (prune.rs:32-53). -/
def new (s : S) : PruneSt S := ⟨s, false, 0, fun _ => 0⟩

/-- the current type of a layer (prune.rs:312-313, 324-325) -/
def curType (st : PruneSt S) (k : Nat) : Option Ty := (cfg.types k)[st.used k]?

/-- `current_input_trie_value` (prune.rs:311-317). -/
def currentAt (st : PruneSt S) (k : Nat) : Option α := do
  let τ ← cfg.curType st k
  cfg.ops.current st.scan k τ

/-- `next_input_trie_value` (prune.rs:323-331). -/
def nextVal (st : PruneSt S) : Option (Option α × PruneSt S) :=
  match cfg.curType st st.layer with
  | none => some (none, st)
  | some τ => do
    let r ← cfg.ops.next st.scan τ
    return (r.1, { st with scan := r.2 })

/-- `input_up` (prune.rs:199-205). -/
def inputUp (st : PruneSt S) : Option (PruneSt S) :=
  if st.layer = 0 then none
  else do
    let s ← cfg.ops.up st.scan
    return { st with scan := s, layer := st.layer - 1 }

/-- `input_down` (prune.rs:207-218): `unwrap` panics without possible types. -/
def inputDown (st : PruneSt S) : Option (PruneSt S) :=
  if st.layer + 1 < cfg.arity then do
    let τ ← (cfg.types (st.layer + 1))[0]?
    let s ← cfg.ops.down st.scan τ
    return ⟨s, st.init, st.layer + 1, Function.update st.used (st.layer + 1) 0⟩
  else none

/-- `go_to_next_type` and `input_jump_type` (prune.rs:220-241). -/
def jumpType (st : PruneSt S) : Option (Bool × PruneSt S) :=
  let used := Function.update st.used st.layer (st.used st.layer + 1)
  match (cfg.types st.layer)[st.used st.layer + 1]? with
  | none => some (false, { st with used := used })
  | some τ => do
    let s ← cfg.ops.up st.scan
    let s ← cfg.ops.down s τ
    return (true, { st with scan := s, used := used })

/-- the first loop of `try_to_go_to_layer` (prune.rs:264-266) -/
def goUp : Nat → PruneSt S → Option (PruneSt S)
  | 0, st => some st
  | n + 1, st => do
    let st ← cfg.inputUp st
    goUp n st

/-- the second loop of `try_to_go_to_layer` (prune.rs:267-275) -/
def goDown : Nat → PruneSt S → Option (PruneSt S)
  | 0, st => some st
  | n + 1, st =>
    if (cfg.currentAt st st.layer).isNone then some st
    else do
      let st ← cfg.inputDown st
      goDown n st

/-- `try_to_go_to_layer` (prune.rs:258-278). -/
def goTo (st : PruneSt S) (target : Nat) : Option (PruneSt S) :=
  if target < cfg.arity then do
    let st ← cfg.goUp (st.layer - target) st
    cfg.goDown (target - st.layer) st
  else none

/-- The branch of the loop without a next value (prune.rs:538-551); `none`: the function returns. -/
def backUp (st : PruneSt S) (u : Nat) : Option (Option Nat × PruneSt S) := do
  let r ← cfg.jumpType st
  if r.1 then return (some u, r.2)
  else if r.2.layer = 0 then return (none, r.2)
  else do
    let st ← cfg.inputUp r.2
    return (some (min u st.layer), st)

/-- The loop of `advance_on_layer` (prune.rs:530-562), where `u` is `uppermost_advanced_layer_index` and all layers may
advance (`boundary_layer = 0`). -/
def loop (st : PruneSt S) (u : Nat) : Option (Option Nat × PruneSt S) := do
  let r ← cfg.nextVal st
  if r.1.isNone then do
    let b ← cfg.backUp r.2 u
    match b.1 with
    | none => return (none, b.2)
    | some u => loop b.2 u
  else if r.2.layer = cfg.arity - 1 then return (some u, r.2)
  else do
    let st ← cfg.inputDown r.2
    loop st u
partial_fixpoint

/-- `TrieScanPruneState::advance_on_layer` with `stay_in_type = None` and without peeked layers (prune.rs:477-563). -/
def advanceInit (st : PruneSt S) (l : Nat) : Option (Option Nat × PruneSt S) := do
  let st ← cfg.goTo st l
  cfg.loop st st.layer

/-- The first call of `down` (prune.rs:172-178). -/
def enter (st : PruneSt S) (τ : Ty) : Option (PruneSt S) := do
  let s ← cfg.ops.down st.scan τ
  return ⟨s, true, st.layer, Function.update st.used st.layer 0⟩

/-- The first call of `advance_on_layer` (prune.rs:648-654): only the first `down` touches the input, the others move the
external layer; the function returns early if a layer has no possible type. -/
def advanceFirst (st : PruneSt S) (l : Nat) : Option (Option Nat × PruneSt S) :=
  if l < cfg.arity then
    match (cfg.types 0)[0]? with
    | none => some (none, st)
    | some τ => do
      let st ← cfg.enter st τ
      if (List.range (l + 1)).any fun k => (cfg.types k).isEmpty then return (none, st)
      else cfg.advanceInit st l
  else none

/-- `TrieScan::advance_on_layer` for `TrieScanPrune` (prune.rs:647-660). -/
def advance (st : PruneSt S) (l : Nat) : Option (Option Nat × PruneSt S) :=
  if st.init then cfg.advanceInit st l else cfg.advanceFirst st l

/-- `TrieScanPrune` as a full scan (prune.rs:646-670). -/
def full : FullOps (PruneSt S) α where
  advance := cfg.advance
  current st k := (cfg.currentAt st k).map fun a => (a, st)

end PruneCfg

/-! ## Pruned scans enumerate the rows -/

namespace PruneCfg
variable {S α : Type} [SVal α] {cfg : PruneCfg S α} {ch : List α → Ty → List α} {R : S → TPath α → Prop}
open RowCfg (UsedOK usedOK_congr usedOK_suffix usedOK_drop length_pref full_suffix pref_getElem? next_current next_at
  leaves_succ leaves_length cpl_append cpl_of_prefix)

/-- values still to be visited on the layer of the innermost cursor -/
def todo (cfg : PruneCfg S α) (ch : List α → Ty → List α) (used : Nat → Nat) (c : Cur α) (p : TPath α) : List α :=
  c.next.rem ++ ((cfg.types p.length).drop (used p.length + 1)).flatMap (ch (TPath.pref p))

/-- the rows that are still to come, with the layer that will be advanced to reach them -/
def restL (cfg : PruneCfg S α) (ch : List α → Ty → List α) (used : Nat → Nat) : TPath α → List (List α × Nat)
  | [] => []
  | (_, c) :: p => ((todo cfg ch used c p).flatMap fun a =>
      (leaves cfg.types ch (cfg.arity - p.length - 1) (TPath.pref p ++ [a])).map fun r => (r, p.length)) ++
      restL cfg ch used p

/-- a bound for the number of iterations needed to explore a subtree -/
def cost (types : Nat → List Ty) (ch : List α → Ty → List α) : Nat → List α → Nat
  | 0, _ => 0
  | n + 1, w => (types w.length).length + 1 + ((kidsAt types ch w).map fun a => 1 + cost types ch n (w ++ [a])).sum

/-- a bound for the number of iterations from a position -/
def pathCost (cfg : PruneCfg S α) (ch : List α → Ty → List α) (used : Nat → Nat) : TPath α → Nat
  | [] => 0
  | (_, c) :: p => ((cfg.types p.length).length - (used p.length + 1)) + 1 +
      ((todo cfg ch used c p).map fun a => 1 + cost cfg.types ch (cfg.arity - p.length - 1) (TPath.pref p ++ [a])).sum +
      pathCost cfg ch used p

theorem todo_congr {u v : Nat → Nat} {p : TPath α} {c : Cur α} (h : u p.length = v p.length) :
    todo cfg ch u c p = todo cfg ch v c p := by rw [todo, todo, h]

theorem restL_congr {u v : Nat → Nat} {p : TPath α} (h : ∀ k < p.length, u k = v k) :
    restL cfg ch u p = restL cfg ch v p := by
  induction p with
  | nil => rfl
  | cons e p ih =>
    obtain ⟨τ, c⟩ := e
    rw [restL, restL, todo_congr (h p.length (by simp)), ih fun k hk => h k (by simp; omega)]

theorem pathCost_congr {u v : Nat → Nat} {p : TPath α} (h : ∀ k < p.length, u k = v k) :
    pathCost cfg ch u p = pathCost cfg ch v p := by
  induction p with
  | nil => rfl
  | cons e p ih =>
    obtain ⟨τ, c⟩ := e
    rw [pathCost, pathCost, todo_congr (h p.length (by simp)), ih fun k hk => h k (by simp; omega),
      h p.length (by simp)]

theorem todo_fresh {used : Nat → Nat} {p : TPath α} {τ : Ty} (hf : p.full)
    (h0 : used p.length = 0) (hτ : (cfg.types p.length)[0]? = some τ) :
    todo cfg ch used (.fresh (ch (TPath.pref p) τ)) p = kidsAt cfg.types ch (TPath.pref p) := by
  rw [todo, kidsAt, length_pref hf, h0]
  cases ht : cfg.types p.length with
  | nil => rw [ht] at hτ; simp at hτ
  | cons x l =>
    rw [ht] at hτ
    simp only [List.getElem?_cons_zero, Option.some.injEq] at hτ
    subst hτ
    simp [Cur.next, Cur.rem]

theorem todo_next {u v : Nat → Nat} {p : TPath α} {c : Cur α} {τ' : Ty}
    (hc : c.next.rem = []) (hτ : (cfg.types p.length)[u p.length + 1]? = some τ')
    (hu : v p.length = u p.length + 1) :
    todo cfg ch v (.fresh (ch (TPath.pref p) τ')) p = todo cfg ch u c p := by
  obtain ⟨hlt, hget⟩ := List.getElem?_eq_some_iff.mp hτ
  rw [todo, todo, hc, hu, List.drop_eq_getElem_cons hlt, hget]
  simp [Cur.next, Cur.rem]

theorem todo_end {u : Nat → Nat} {p : TPath α} {c : Cur α} (hc : c.next.rem = [])
    (h : (cfg.types p.length)[u p.length + 1]? = none) : todo cfg ch u c p = [] := by
  rw [todo, hc, List.drop_of_length_le (by simpa using h)]; simp

theorem todo_cons {u : Nat → Nat} {p : TPath α} {c : Cur α} {a : α} {l : List α}
    (hc : c.next.rem = a :: l) : todo cfg ch u c p = a :: todo cfg ch u (.at (a :: l)) p := by
  rw [todo, todo, hc]; simp [Cur.next, Cur.rem]

/-- the state and the path agree -/
structure Good (cfg : PruneCfg S α) (R : S → TPath α → Prop) (st : PruneSt S) (p : TPath α) : Prop where
  rel : R st.scan p
  used : UsedOK cfg.types st.used p
  layer : st.layer + 1 = p.length
  init : st.init = true

/-- after the last row -/
structure Done (cfg : PruneCfg S α) (R : S → TPath α → Prop) (st : PruneSt S) : Prop where
  rel : ∃ τ c, R st.scan [(τ, c)]
  used : (cfg.types 0).length ≤ st.used 0
  layer : st.layer = 0
  init : st.init = true

/-- Hypotheses about the input: it behaves like a tree, and all layers have possible types. -/
structure OK (cfg : PruneCfg S α) (ch : List α → Ty → List α) (R : S → TPath α → Prop) : Prop where
  sim : Simulates cfg.ops cfg.arity ch R
  ne : ∀ k < cfg.arity, cfg.types k ≠ []
  nodup : ∀ p, (kidsAt cfg.types ch p).Nodup

/-- no value is visited twice -/
def Nod (cfg : PruneCfg S α) (ch : List α → Ty → List α) (used : Nat → Nat) : TPath α → Prop
  | [] => True
  | (_, c) :: p => (c.current.toList ++ todo cfg ch used c p).Nodup ∧ Nod cfg ch used p

theorem Nod.congr {u v : Nat → Nat} {p : TPath α} (h : ∀ k < p.length, u k = v k) (hn : Nod cfg ch u p) :
    Nod cfg ch v p := by
  induction p with
  | nil => trivial
  | cons e p ih =>
    obtain ⟨τ, c⟩ := e
    exact ⟨by rw [← todo_congr (h p.length (by simp))]; exact hn.1, ih (fun k hk => h k (by simp; omega)) hn.2⟩

theorem nextVal_spec (hS : Simulates cfg.ops cfg.arity ch R) {st : PruneSt S} {τ : Ty} {c : Cur α} {p : TPath α}
    (hG : Good cfg R st ((τ, c) :: p)) : ∃ s, cfg.nextVal st = some (c.next.rem.head?, { st with scan := s }) ∧
      Good cfg R { st with scan := s } ((τ, .at c.next.rem) :: p) := by
  obtain ⟨s1, e1, e2⟩ := hS.next _ _ _ _ hG.rel
  have hl : st.layer = p.length := by have := hG.layer; simp at this; omega
  refine ⟨s1, ?_, by rw [next_at] at e2; exact e2, hG.used, hG.layer, hG.init⟩
  have : cfg.curType st st.layer = some τ := by rw [curType, hl]; exact hG.used.1
  rw [nextVal, this]
  simp [e1, next_current]

theorem jumpType_spec (hS : Simulates cfg.ops cfg.arity ch R) {st : PruneSt S} {τ : Ty} {c : Cur α} {p : TPath α}
    (hG : Good cfg R st ((τ, c) :: p)) (hf : p.full) (hc : c.next.rem = []) :
    (∃ st', cfg.jumpType st = some (false, st') ∧ todo cfg ch st.used c p = [] ∧ R st'.scan ((τ, c) :: p) ∧
        st'.layer = st.layer ∧ st'.init = true ∧ (∀ k, k ≠ p.length → st'.used k = st.used k) ∧
        (cfg.types p.length).length ≤ st'.used p.length) ∨
    (∃ st' τ', cfg.jumpType st = some (true, st') ∧ Good cfg R st' ((τ', .fresh (ch (TPath.pref p) τ')) :: p) ∧
      todo cfg ch st'.used (.fresh (ch (TPath.pref p) τ')) p = todo cfg ch st.used c p ∧
      (∀ k, k ≠ p.length → st'.used k = st.used k) ∧ st'.used p.length = st.used p.length + 1 ∧
      st.used p.length + 1 < (cfg.types p.length).length) := by
  obtain ⟨hd, hda⟩ := hS.depth _ _ hG.rel
  have hl : st.layer = p.length := by have := hG.layer; simp at this; omega
  cases hn : (cfg.types p.length)[st.used p.length + 1]? with
  | none =>
    left
    refine ⟨{ st with used := Function.update st.used st.layer (st.used st.layer + 1) }, ?_, todo_end hc hn, hG.rel, rfl,
      hG.init, fun k hk => ?_, ?_⟩
    · simp only [jumpType, hl, hn]
    · simp only [hl]; rw [Function.update_of_ne hk]
    · simp only [hl, Function.update_self]
      simpa using hn
  | some τ' =>
    right
    obtain ⟨s1, e1, e2⟩ := hS.up _ _ _ hG.rel
    obtain ⟨s2, e3, e4⟩ := hS.down _ _ τ' e2 hf (by simp at hda; omega)
    refine ⟨⟨s2, st.init, st.layer, Function.update st.used st.layer (st.used st.layer + 1)⟩, τ', ?_,
      ⟨e4, ⟨?_, usedOK_congr (fun k hk => ?_) hG.used.2⟩, by simp [hl], hG.init⟩, todo_next hc hn (by simp [hl]),
      fun k hk => ?_, by simp [hl], (List.getElem?_eq_some_iff.1 hn).1⟩
    · simp only [jumpType, hl, hn]
      rw [e1]; simp [e3, hl]
    · simpa [hl] using hn
    · simp only [hl]; rw [Function.update_of_ne (by omega)]
    · simp only [hl]; rw [Function.update_of_ne hk]

theorem inputUp_spec (hS : Simulates cfg.ops cfg.arity ch R) {st : PruneSt S} {e : Ty × Cur α} {p : TPath α}
    (hR : R st.scan (e :: p)) (hp : p ≠ []) (hl : st.layer = p.length) :
    ∃ s, cfg.inputUp st = some { st with scan := s, layer := st.layer - 1 } ∧ R s p := by
  obtain ⟨s1, e1, e2⟩ := hS.up _ _ _ hR
  have : p.length ≠ 0 := by simpa using hp
  refine ⟨s1, ?_, e2⟩
  rw [inputUp, if_neg (by omega), e1]; rfl

theorem inputDown_spec (hO : OK cfg ch R) {st : PruneSt S} {p : TPath α} (hG : Good cfg R st p) (hf : p.full)
    (hlt : p.length < cfg.arity) : ∃ st' τ', cfg.inputDown st = some st' ∧ st'.used p.length = 0 ∧
      (∀ k, k ≠ p.length → st'.used k = st.used k) ∧ (cfg.types p.length)[0]? = some τ' ∧
      Good cfg R st' ((τ', .fresh (ch (TPath.pref p) τ')) :: p) := by
  have hl := hG.layer
  obtain ⟨τ', hτ⟩ : ∃ τ', (cfg.types p.length)[0]? = some τ' := by
    cases h : cfg.types p.length with
    | nil => exact absurd h (hO.ne _ hlt)
    | cons x l => exact ⟨x, rfl⟩
  obtain ⟨s1, e1, e2⟩ := hO.sim.down _ _ τ' hG.rel hf hlt
  refine ⟨⟨s1, st.init, st.layer + 1, Function.update st.used (st.layer + 1) 0⟩, τ', ?_, by simp [hl], fun k hk => ?_, hτ,
    e2, ⟨by simpa [hl] using hτ, usedOK_congr (fun k hk => ?_) hG.used⟩, by simp [hl], hG.init⟩
  · rw [inputDown, hl, if_pos hlt, hτ]
    simp [e1]
  · simp only [hl]; rw [Function.update_of_ne hk]
  · simp only [hl]; rw [Function.update_of_ne (by omega)]

/-- What the loop returns. -/
def LoopResult (cfg : PruneCfg S α) (ch : List α → Ty → List α) (R : S → TPath α → Prop) (u : Nat)
    (rest : List (List α × Nat)) (res : Option (Option Nat × PruneSt S)) : Prop :=
  match rest with
  | [] => ∃ st', res = some (none, st') ∧ Done cfg R st'
  | x :: rest => ∃ st' p', res = some (some (min u x.2), st') ∧ Good cfg R st' p' ∧ p'.full ∧ p'.length = cfg.arity ∧
      TPath.pref p' = x.1 ∧ (restL cfg ch st'.used p').map (·.1) = rest.map (·.1) ∧ Nod cfg ch st'.used p'

theorem LoopResult.congr {u v : Nat} {A B : List (List α × Nat)} {res : Option (Option Nat × PruneSt S)}
    (h : LoopResult cfg ch R u A res) (hm : A.map (·.1) = B.map (·.1))
    (hu : ∀ x ∈ A.head?, ∀ y ∈ B.head?, min u x.2 = min v y.2) : LoopResult cfg ch R v B res := by
  cases A with
  | nil =>
    cases B with
    | nil => exact h
    | cons y B => simp at hm
  | cons x A =>
    cases B with
    | nil => simp at hm
    | cons y B =>
      simp only [List.map_cons, List.cons.injEq] at hm
      obtain ⟨st', p', h1, h2, h3, h4, h5, h6, h7⟩ := h
      exact ⟨st', p', by rw [h1, hu x rfl y rfl], h2, h3, h4, by rw [h5, hm.1], by rw [h6, hm.2], h7⟩

theorem pref_at (τ : Ty) (a : α) (l : List α) (p : TPath α) :
    TPath.pref ((τ, .at (a :: l)) :: p) = TPath.pref p ++ [a] := GScan.pref_cons (v := a) rfl

theorem full_at {τ : Ty} {a : α} {l : List α} {p : TPath α} (hf : p.full) : TPath.full ((τ, .at (a :: l)) :: p) :=
  GScan.full_cons.mpr ⟨rfl, hf⟩

theorem restL_layer {used : Nat → Nat} {p : TPath α} {x : List α × Nat} (h : x ∈ restL cfg ch used p) :
    x.2 < p.length := by
  induction p with
  | nil => cases h
  | cons e p ih =>
    obtain ⟨τ, c⟩ := e
    rw [restL, List.mem_append] at h
    rcases h with h | h
    · obtain ⟨a, _, h⟩ := List.mem_flatMap.1 h
      obtain ⟨r, _, rfl⟩ := List.mem_map.1 h
      simp
    · have := ih h
      simp; omega

theorem min_head {u : Nat} {A B C : List (List α × Nat)} (hAB : A.map (·.1) = B.map (·.1)) (hA : ∀ x ∈ A, u ≤ x.2)
    (hB : ∀ x ∈ B, u ≤ x.2) : ∀ x ∈ (A ++ C).head?, ∀ y ∈ (B ++ C).head?, min u x.2 = min u y.2 := by
  intro x hx y hy
  cases A with
  | nil =>
    cases B with
    | nil => rw [hx] at hy; cases hy; rfl
    | cons b B => simp at hAB
  | cons a A =>
    cases B with
    | nil => simp at hAB
    | cons b B =>
      simp only [List.cons_append, List.head?_cons, Option.mem_def, Option.some.injEq] at hx hy
      subst hx; subst hy
      have := hA a (by simp)
      have := hB b (by simp)
      omega

theorem loop_spec (hO : OK cfg ch R) (fuel : Nat) : ∀ (st : PruneSt S) (τ : Ty) (c : Cur α) (p : TPath α) (u : Nat),
    pathCost cfg ch st.used ((τ, c) :: p) ≤ fuel → Good cfg R st ((τ, c) :: p) → p.full → u ≤ p.length →
    Nod cfg ch st.used ((τ, c) :: p) → LoopResult cfg ch R u (restL cfg ch st.used ((τ, c) :: p)) (cfg.loop st u) := by
  induction fuel with
  | zero => intro st τ c p u hc; simp [pathCost] at hc
  | succ fuel ih =>
    intro st τ c p u hcost hG hf hu hN
    have hS := hO.sim
    obtain ⟨hd, hda⟩ := hS.depth _ _ hG.rel
    simp only [List.length_cons] at hda
    have hl : st.layer = p.length := by have := hG.layer; simp at this; omega
    obtain ⟨s1, e1, hG1⟩ := nextVal_spec hS hG
    rw [loop, e1]
    cases hc : c.next.rem with
    | nil =>
      rw [hc] at hG1
      simp only [List.head?_nil, Option.bind_eq_bind, Option.bind_some, Option.isNone_none, if_true]
      have htd : todo cfg ch st.used (.at []) p = todo cfg ch st.used c p := by
        rw [todo, todo, hc]; rfl
      rcases jumpType_spec hS hG1 hf rfl with ⟨st', j1, j2, j3, j4, j5, j6, j7⟩ | ⟨st', τ', j1, j2, j3, j4, j5, j6⟩
      · simp only at j2
        rw [htd] at j2
        simp only [backUp, j1, Option.bind_eq_bind, Option.bind_some, Bool.false_eq_true, if_false]
        rw [restL, j2, List.flatMap_nil, List.nil_append]
        simp only at j4
        cases p with
        | nil =>
          rw [if_pos (by rw [j4]; simpa using hl)]
          simp only [Option.pure_def, Option.bind_some]
          exact ⟨st', rfl, ⟨⟨τ, _, j3⟩, j7, by rw [j4]; simpa using hl, j5⟩⟩
        | cons e q =>
          obtain ⟨σ, c'⟩ := e
          obtain ⟨s2, k1, k2⟩ := inputUp_spec hS j3 (by simp) (by rw [j4, hl])
          rw [if_neg (by rw [j4, hl]; simp), k1]
          simp only [Option.pure_def, Option.bind_some]
          have hus : ∀ k < (((σ, c') :: q : TPath α)).length, st'.used k = st.used k := by
            intro k hk; exact j6 k (by omega)
          have hl' : st'.layer - 1 = q.length := by rw [j4, hl]; simp
          simp only [hl']
          have hG' : Good cfg R ⟨s2, st'.init, q.length, st'.used⟩ ((σ, c') :: q) :=
            ⟨k2, usedOK_congr (fun k hk => (hus k hk).symm) hG.used.2, by simp, j5⟩
          have := ih ⟨s2, st'.init, q.length, st'.used⟩ σ c' q (min u q.length) (by
            rw [pathCost_congr (v := st.used) hus]
            rw [pathCost] at hcost; omega) hG' (GScan.full_cons.mp hf).2 (by omega) (hN.2.congr fun k hk => (hus k hk).symm)
          rw [restL_congr (v := st.used) hus] at this
          refine this.congr rfl ?_
          intro x hx y hy
          rw [hx] at hy
          cases hy
          have := restL_layer (List.mem_of_head? hx)
          simp only [List.length_cons] at this
          omega
      · simp only [backUp, j1, Option.bind_eq_bind, Option.bind_some, if_true, Option.pure_def]
        simp only at j3 j4 j5 j6
        rw [htd] at j3
        have hus : ∀ k < p.length, st'.used k = st.used k := fun k hk => j4 k (by omega)
        have := ih st' τ' _ p u (by
          rw [pathCost, j3, pathCost_congr hus, j5]
          rw [pathCost] at hcost
          omega) j2 hf hu ⟨by
            rw [j3]; exact (List.nodup_append.1 hN.1).2.1, hN.2.congr fun k hk => (hus k hk).symm⟩
        rw [restL, j3, restL_congr hus] at this
        rw [restL]
        exact this
    | cons a l =>
      rw [hc] at hG1
      simp only [List.head?_cons, Option.bind_eq_bind, Option.bind_some, Option.isNone_some, Bool.false_eq_true, if_false]
      have htd := todo_cons (cfg := cfg) (ch := ch) (u := st.used) (p := p) hc
      have hf1 : TPath.full ((τ, .at (a :: l)) :: p) := full_at hf
      have hN1 : Nod cfg ch st.used ((τ, .at (a :: l)) :: p) := by
        refine ⟨?_, hN.2⟩
        have := (List.nodup_append.1 hN.1).2.1
        rw [htd] at this
        exact this
      rw [restL, htd, List.flatMap_cons]
      by_cases hbot : p.length + 1 = cfg.arity
      · rw [if_pos (by rw [hl]; omega), show cfg.arity - p.length - 1 = 0 by omega]
        refine ⟨_, _, ?_, hG1, hf1, by simpa using hbot, pref_at _ _ _ _, ?_, hN1⟩
        · rw [Nat.min_eq_left hu]; rfl
        · simp [restL, show cfg.arity - p.length - 1 = 0 by omega]
      · rw [if_neg (by rw [hl]; omega)]
        obtain ⟨st', τ', k1, k2, k3, k4, k5⟩ := inputDown_spec hO hG1 hf1 (by simp; omega)
        rw [k1]
        simp only [Option.bind_some]
        simp only [List.length_cons] at k2 k3 k4
        have hus : ∀ k < ((τ, Cur.at (a :: l)) :: p).length, st'.used k = st.used k :=
          fun k hk => k3 k (by simp at hk; omega)
        have hkids := todo_fresh (cfg := cfg) (ch := ch) hf1 (by simpa using k2) (by simpa using k4)
        obtain ⟨n, hn⟩ : ∃ n, cfg.arity - p.length - 1 = n + 1 := ⟨cfg.arity - p.length - 2, by omega⟩
        have hn' : cfg.arity - (p.length + 1) - 1 = n := by omega
        have hkl : (cfg.types (p.length + 1)).length ≠ 0 := by
          have := hO.ne (p.length + 1) (by omega); simpa using this
        have hprl : (TPath.pref p).length = p.length := length_pref hf
        have := ih st' τ' _ _ u (by
          rw [pathCost, hkids, pathCost_congr (v := st.used) hus, pathCost]
          rw [pathCost, htd] at hcost
          simp only [List.length_cons, k2, hn', hn, List.map_cons, List.sum_cons, cost, pref_at, List.length_append,
            List.length_nil, hprl, Nat.zero_add] at hcost ⊢
          omega) k5 hf1 (by simp; omega) ⟨by
            rw [hkids]; exact hO.nodup _, hN1.congr fun k hk => (hus k hk).symm⟩
        rw [restL, hkids, restL_congr (v := st.used) hus, restL] at this
        simp only [List.length_cons, hn', pref_at] at this
        refine this.congr ?_ ?_
        · rw [hn, leaves_succ]
          simp only [List.map_append, List.map_flatMap, List.map_map, Function.comp_def, List.map_id', List.append_assoc, hn]
        · rw [hn, List.append_assoc]
          refine min_head ?_ ?_ ?_
          · rw [leaves_succ]
            simp only [List.map_append, List.map_flatMap, List.map_map, Function.comp_def, List.map_id']
          · intro x hx
            obtain ⟨b, _, hx⟩ := List.mem_flatMap.1 hx
            obtain ⟨r, _, rfl⟩ := List.mem_map.1 hx
            simp; omega
          · intro x hx
            obtain ⟨r, _, rfl⟩ := List.mem_map.1 hx
            simp; omega

/-- the rows still to come -/
def rest (cfg : PruneCfg S α) (ch : List α → Ty → List α) (used : Nat → Nat) (p : TPath α) : List (List α) :=
  (restL cfg ch used p).map (·.1)

theorem leaves_prefix {types : Nat → List Ty} {n : Nat} {w r : List α} (h : r ∈ leaves types ch n w) : w <+: r := by
  induction n generalizing w with
  | zero => simp [leaves, dfs] at h; subst h; exact List.prefix_rfl
  | succ n ih =>
    rw [leaves_succ, List.mem_flatMap] at h
    obtain ⟨a, _, h⟩ := h
    exact (List.prefix_append w [a]).trans (ih h)

/-- The layer that is advanced is the first one in which the row differs. -/
theorem restL_cpl {used : Nat → Nat} {p : TPath α} (hf : p.full) (hN : Nod cfg ch used p) {x : List α × Nat}
    (hx : x ∈ restL cfg ch used p) (w : List α) : cpl (TPath.pref p ++ w) x.1 = x.2 := by
  induction p generalizing w with
  | nil => cases hx
  | cons e p ih =>
    obtain ⟨τ, c⟩ := e
    obtain ⟨hfc, hfp⟩ := GScan.full_cons.mp hf
    obtain ⟨v, hv⟩ := Option.isSome_iff_exists.mp hfc
    rw [GScan.pref_cons hv]
    rw [restL, List.mem_append] at hx
    rcases hx with hx | hx
    · obtain ⟨a, ha, hx⟩ := List.mem_flatMap.1 hx
      obtain ⟨r, hr, rfl⟩ := List.mem_map.1 hx
      have hne : v ≠ a := by
        have := hN.1
        rw [hv] at this
        simp only [Option.toList_some, List.cons_append, List.nil_append, List.nodup_cons] at this
        rintro rfl; exact this.1 ha
      rw [cpl_of_prefix hne (List.prefix_append _ w) (leaves_prefix hr), length_pref hfp]
    · rw [List.append_assoc]; exact ih hfp hN.2 hx _

/-- Going up skips exactly the rows which agree with the current row up to the new layer. -/
theorem rest_drop {used : Nat → Nat} (n : Nat) : ∀ {p : TPath α}, p.full → Nod cfg ch used p → n ≤ p.length →
    ∃ A, rest cfg ch used p = A ++ rest cfg ch used (p.drop n) ∧ ∀ r ∈ A, TPath.pref (p.drop n) <+: r := by
  induction n with
  | zero => intro p _ _ _; exact ⟨[], rfl, by simp⟩
  | succ n ih =>
    intro p hf hN hn
    cases p with
    | nil => simp at hn
    | cons e p =>
      obtain ⟨τ, c⟩ := e
      obtain ⟨hfc, hfp⟩ := GScan.full_cons.mp hf
      obtain ⟨A, h1, h2⟩ := ih hfp hN.2 (by simpa using hn)
      simp only [List.drop_succ_cons]
      refine ⟨((todo cfg ch used c p).flatMap fun a =>
        (leaves cfg.types ch (cfg.arity - p.length - 1) (TPath.pref p ++ [a]))) ++ A, ?_, ?_⟩
      · rw [rest, restL, List.map_append, List.append_assoc, ← h1, rest, List.map_flatMap]
        simp only [List.map_map, Function.comp_def, List.map_id']
      · intro r hr
        rcases List.mem_append.1 hr with hr | hr
        · obtain ⟨a, _, hr⟩ := List.mem_flatMap.1 hr
          have h1 : TPath.pref p <+: r := (List.prefix_append _ [a]).trans (leaves_prefix hr)
          refine List.IsPrefix.trans ?_ h1
          refine ⟨TPath.pref (p.take n), ?_⟩
          rw [TPath.pref, TPath.pref, TPath.pref, ← List.reverse_append, ← List.filterMap_append, List.take_append_drop]
        · exact h2 r hr

/-- The position of a pruned scan. -/
def At (cfg : PruneCfg S α) (ch : List α → Ty → List α) (R : S → TPath α → Prop) (st : PruneSt S) (z : List α)
    (rs : List (List α)) : Prop :=
  ∃ p, Good cfg R st p ∧ p.full ∧ p.length = cfg.arity ∧ TPath.pref p = z ∧ rest cfg ch st.used p = rs ∧
    Nod cfg ch st.used p ∧ z :: rs <:+ leaves cfg.types ch cfg.arity []

/-- The relation between pruned scans and positions in the list of rows. -/
def Rel (cfg : PruneCfg S α) (ch : List α → Ty → List α) (R : S → TPath α → Prop) (st : PruneSt S) : FullPos α → Prop
  | .start => R st.scan [] ∧ st.init = false ∧ st.layer = 0
  | .at z rs => At cfg ch R st z rs
  | .done => Done cfg R st

theorem goUp_spec (hS : Simulates cfg.ops cfg.arity ch R) (n : Nat) : ∀ {st : PruneSt S} {p : TPath α},
    Good cfg R st p → n < p.length →
    ∃ st', cfg.goUp n st = some st' ∧ Good cfg R st' (p.drop n) ∧ st'.used = st.used := by
  induction n with
  | zero => intro st p hG _; exact ⟨st, rfl, hG, rfl⟩
  | succ n ih =>
    intro st p hG hn
    cases p with
    | nil => simp at hn
    | cons e p =>
      have hl := hG.layer
      simp only [List.length_cons] at hl hn
      obtain ⟨s, e1, e2⟩ := inputUp_spec hS hG.rel (by rintro rfl; simp at hn) (by omega)
      obtain ⟨st', k1, k2, k3⟩ := ih (st := { st with scan := s, layer := st.layer - 1 }) (p := p)
        ⟨e2, by obtain ⟨τ, c⟩ := e; exact hG.used.2, by simp; omega, hG.init⟩ (by omega)
      exact ⟨st', by rw [goUp, e1]; exact k1, by simpa using k2, k3⟩

theorem suffix_tail {A : List (List α)} {z : List α} {rs L : List (List α)} (h : z :: rs <:+ L) {r : List α}
    {rs' : List (List α)} (he : rs = A ++ r :: rs') : r :: rs' <:+ L := by
  refine List.IsSuffix.trans ?_ h
  rw [he]
  exact ⟨z :: A, by simp⟩

/-- **A pruned scan is a full scan** of the rows of its input, in ascending order. -/
theorem full_sim (hO : OK cfg ch R) (first : Nat) (hfirst : first < cfg.arity) :
    FullSim cfg.full cfg.arity (leaves cfg.types ch cfg.arity []) first (Rel cfg ch R) := by
  have hS := hO.sim
  have hloop : ∀ (st : PruneSt S) (τ : Ty) (c : Cur α) (p : TPath α) (u : Nat), Good cfg R st ((τ, c) :: p) → p.full →
      u ≤ p.length → Nod cfg ch st.used ((τ, c) :: p) →
      LoopResult cfg ch R u (restL cfg ch st.used ((τ, c) :: p)) (cfg.loop st u) :=
    fun st τ c p u h1 h2 h3 h4 => loop_spec hO _ st τ c p u (le_refl _) h1 h2 h3 h4
  -- the first call
  have hstart : ∀ s, Rel cfg ch R s .start → LoopResult cfg ch R 0
      ((leaves cfg.types ch cfg.arity []).map fun r => (r, 0)) (cfg.advance s first) := by
    rintro ⟨s, i, l, used⟩ ⟨h1, h2, h3⟩
    simp only at h1 h2 h3
    subst h2; subst h3
    obtain ⟨τ, hτ⟩ : ∃ τ, (cfg.types 0)[0]? = some τ := by
      cases h : cfg.types 0 with
      | nil => exact absurd h (hO.ne _ (by omega))
      | cons x l => exact ⟨x, rfl⟩
    obtain ⟨s1, e1, e2⟩ := hS.down _ _ τ h1 (by intro e he; cases he) (by simp; omega)
    have hne : ((List.range (first + 1)).any fun k => (cfg.types k).isEmpty) = false := by
      simp only [List.any_eq_false, List.mem_range, List.isEmpty_iff]
      intro k hk; exact hO.ne k (by omega)
    have hp0 : TPath.pref ([] : TPath α) = [] := rfl
    rw [hp0] at e2
    set st1 : PruneSt S := ⟨s1, true, 0, Function.update used 0 0⟩ with hst1
    have hG : Good cfg R st1 [(τ, .fresh (ch [] τ))] :=
      ⟨e2, ⟨by simpa [hst1] using hτ, trivial⟩, by simp [hst1], rfl⟩
    have hcur : cfg.currentAt st1 0 = none := by
      rw [currentAt, curType]
      simp only [hst1, Function.update_self, hτ, Option.bind_eq_bind, Option.bind_some]
      have := hS.current s1 [] [] τ _ e2 (by simp)
      simpa [Cur.current] using this
    have hgo : cfg.goTo st1 first = some st1 := by
      rw [goTo, if_pos hfirst]
      simp only [hst1, Nat.zero_sub, goUp, Option.bind_eq_bind, Option.bind_some, Nat.sub_zero]
      cases first with
      | zero => rfl
      | succ f => rw [goDown, if_pos (by rw [← hst1, hcur]; rfl)]
    have hadv : cfg.advance ⟨s, false, 0, used⟩ first = cfg.loop st1 0 := by
      rw [advance, if_neg (by simp), advanceFirst, if_pos hfirst, hτ]
      simp only [enter, e1, Option.bind_eq_bind, Option.bind_some, hne, Bool.false_eq_true, if_false, Option.pure_def]
      rw [← hst1, advanceInit, hgo]; rfl
    rw [hadv]
    have htd := todo_fresh (cfg := cfg) (ch := ch) (used := st1.used) (p := []) (τ := τ) (by intro e he; cases he)
      (by simp [hst1]) hτ
    rw [hp0] at htd
    have := hloop st1 τ _ [] 0 hG (by intro e he; cases he) (by simp) ⟨by rw [htd]; exact hO.nodup _, trivial⟩
    rw [restL, htd, restL, List.append_nil] at this
    obtain ⟨m, hm⟩ : ∃ m, cfg.arity = m + 1 := ⟨cfg.arity - 1, by omega⟩
    rw [hm, leaves_succ, List.map_flatMap]
    simpa [hp0, hm] using this
  -- later calls
  have hnext : ∀ s z rs l, Rel cfg ch R s (.at z rs) → l < cfg.arity →
      ∃ A B, rs = A ++ B.map (·.1) ∧ rs.dropWhile (fun r => decide (r.take (l + 1) = z.take (l + 1))) = B.map (·.1) ∧
        (∀ x ∈ B, x.2 = cpl z x.1 ∧ x.2 ≤ l) ∧ LoopResult cfg ch R l B (cfg.advance s l) := by
    rintro st z rs l ⟨p, hG, hf, hlen, hz, hrs, hN, hsuf⟩ hl
    obtain ⟨st', k1, k2, k3⟩ := goUp_spec hS (cfg.arity - 1 - l) hG (by omega)
    obtain ⟨A, a1, a2⟩ := rest_drop (cfg := cfg) (ch := ch) (used := st.used) (cfg.arity - 1 - l) hf hN (by omega)
    have hql : (p.drop (cfg.arity - 1 - l)).length = l + 1 := by simp; omega
    set q := p.drop (cfg.arity - 1 - l) with hq
    have hfq : TPath.full q := fun e he => hf e (List.mem_of_mem_drop he)
    have hNq : Nod cfg ch st.used q := by
      have : ∀ (n : Nat) (w : TPath α), Nod cfg ch st.used w → Nod cfg ch st.used (w.drop n) := by
        intro n
        induction n with
        | zero => intro w h; exact h
        | succ n ih =>
          intro w h
          cases w with
          | nil => trivial
          | cons e w => obtain ⟨τ, c⟩ := e; exact ih w h.2
      exact this _ _ hN
    have hzq : z = TPath.pref q ++ z.drop (l + 1) ∧ z.take (l + 1) = TPath.pref q := by
      have h1 : p = p.take (cfg.arity - 1 - l) ++ q := (List.take_append_drop _ p).symm
      have h2 : TPath.pref p = TPath.pref q ++ TPath.pref (p.take (cfg.arity - 1 - l)) := by
        conv => lhs; rw [h1]
        simp [TPath.pref, List.filterMap_append]
      have h3 : (TPath.pref q).length = l + 1 := by rw [length_pref hfq, hql]
      rw [← hz, h2, List.take_left' h3, List.drop_left' h3]
      exact ⟨rfl, rfl⟩
    have hB : ∀ x ∈ restL cfg ch st.used q, x.2 = cpl z x.1 ∧ x.2 ≤ l := by
      intro x hx
      have := restL_layer hx
      refine ⟨?_, by omega⟩
      rw [hzq.1]
      exact (restL_cpl hfq hNq hx _).symm
    refine ⟨A, restL cfg ch st.used q, by rw [← hrs]; exact a1, ?_, hB, ?_⟩
    · rw [← hrs, a1, List.dropWhile_append_of_pos]
      · show List.dropWhile _ ((restL cfg ch st.used q).map (·.1)) = _
        cases hr : restL cfg ch st.used q with
        | nil => rfl
        | cons x B =>
          rw [List.map_cons, List.dropWhile_cons_of_neg]
          simp only [decide_eq_true_eq]
          intro he
          obtain ⟨h1, h2⟩ := hB x (by rw [hr]; simp)
          have hzl : z.length = cfg.arity := by rw [← hz, length_pref hf, hlen]
          exact absurd he.symm (take_ne_of_cpl_lt (by omega) (by omega))
      · intro r hr
        simp only [decide_eq_true_eq]
        obtain ⟨w, rfl⟩ := a2 r hr
        rw [hzq.2, List.take_left' (by rw [length_pref hfq, hql])]
    · have hadv : cfg.advance st l = cfg.loop st' l := by
        have hsl := hG.layer
        have hs'l := k2.layer
        rw [hql] at hs'l
        rw [advance, if_pos hG.init, advanceInit, goTo, if_pos hl, show st.layer - l = cfg.arity - 1 - l by omega, k1]
        simp only [Option.bind_eq_bind, Option.bind_some]
        rw [show l - st'.layer = 0 by omega, goDown]
        simp only [Option.bind_some]
        rw [show st'.layer = l by omega]
      rw [hadv, ← k3]
      rw [← k3] at hNq
      cases hq' : q with
      | nil => rw [hq'] at hql; simp at hql
      | cons e q' =>
        obtain ⟨τ, c⟩ := e
        rw [hq'] at k2 hNq hql hfq
        exact hloop st' τ c q' l k2 (GScan.full_cons.mp hfq).2 (by simp at hql; omega) hNq
  refine ⟨?_, ?_, ?_, ?_, ?_, ?_, ?_⟩
  · rintro s z rs ⟨p, hG, hf, hlen, hz, hrs, hN, hsuf⟩
    exact ⟨by rw [← hz, length_pref hf, hlen], hsuf⟩
  · intro s hs hL
    have := hstart s hs
    rw [hL] at this
    obtain ⟨st', h1, _⟩ := this
    exact ⟨st', h1⟩
  · intro s z rs hs hL
    have := hstart s hs
    rw [hL] at this
    obtain ⟨st', p', h1, h2, h3, h4, h5, h6, h7⟩ := this
    simp only [List.map_map, Function.comp_def, List.map_id'] at h6
    exact ⟨st', h1, p', h2, h3, h4, h5, h6, h7, by rw [hL]; exact List.suffix_rfl⟩
  · intro s z rs l hs hl hd
    obtain ⟨A, B, h1, h2, h3, h4⟩ := hnext s z rs l hs hl
    rw [hd] at h2
    have : B = [] := by simpa using h2.symm
    rw [this] at h4
    exact h4
  · intro s z rs l r rs' hs hl hd
    obtain ⟨A, B, h1, h2, h3, h4⟩ := hnext s z rs l hs hl
    rw [hd] at h2
    cases B with
    | nil => simp at h2
    | cons x B =>
      simp only [List.map_cons, List.cons.injEq] at h2
      obtain ⟨rfl, rfl⟩ := h2
      obtain ⟨st', p', k1, k2, k3, k4, k5, k6, k7⟩ := h4
      obtain ⟨h5, h6⟩ := h3 x (by simp)
      obtain ⟨_, _, _, _, _, _, _, hsuf⟩ := hs
      refine ⟨st', ?_, p', k2, k3, k4, k5, k6, k7, suffix_tail hsuf (by rw [h1]; rfl)⟩
      rw [show cfg.full.advance s l = cfg.advance s l from rfl, k1, Nat.min_eq_right h6, h5]
  · rintro ⟨s, i, ly, used⟩ l ⟨⟨τ, c, hR⟩, h2, h3, h4⟩ hl
    simp only at hR h2 h3 h4
    subst h3; subst h4
    have hct : (cfg.types 0)[used 0]? = none := by simpa using h2
    have hgo : cfg.goTo ⟨s, true, 0, used⟩ l = some ⟨s, true, 0, used⟩ := by
      rw [goTo, if_pos hl]
      simp only [Nat.zero_sub, goUp, Option.bind_eq_bind, Option.bind_some, Nat.sub_zero]
      cases l with
      | zero => rfl
      | succ f => rw [goDown, if_pos (by simp [currentAt, curType, hct])]
    have hct' : (cfg.types 0)[used 0 + 1]? = none := by simp; omega
    refine ⟨⟨s, true, 0, Function.update used 0 (used 0 + 1)⟩, ?_, ⟨τ, c, hR⟩, by simp; omega, rfl, rfl⟩
    have hfa : ∀ st, cfg.full.advance st l = cfg.advance st l := fun _ => rfl
    rw [hfa, advance, if_pos rfl, advanceInit, hgo]
    simp only [Option.bind_eq_bind, Option.bind_some]
    rw [loop]
    simp [nextVal, curType, hct, backUp, jumpType, hct']
  · rintro s z rs k a ⟨p, hG, hf, hlen, hz, hrs, hN, hsuf⟩ hk
    refine ⟨s, ?_, p, hG, hf, hlen, hz, hrs, hN, hsuf⟩
    have hkl : k < cfg.arity := by
      have := (List.getElem?_eq_some_iff.1 hk).1
      rw [← hz, length_pref hf, hlen] at this; exact this
    obtain ⟨a', e, b, hp, hb⟩ : ∃ a e b, p = a ++ e :: b ∧ b.length = k := by
      refine ⟨p.take (p.length - k - 1), p[p.length - k - 1]'(by omega), p.drop (p.length - k - 1 + 1),
        ?_, by simp; omega⟩
      rw [← List.drop_eq_getElem_cons, List.take_append_drop]
    obtain ⟨τ, c⟩ := e
    subst hp
    have h1 := hS.current _ _ _ _ _ hG.rel (by
      intro e; subst e
      simpa [Cur.current] using (GScan.full_cons.mp (full_suffix hf)).1)
    have h2 := pref_getElem? hf
    have h3 := (usedOK_suffix hG.used).1
    rw [hb] at h1 h2 h3
    rw [hz, hk] at h2
    rw [← h2] at h1
    show (cfg.currentAt s k).map _ = _
    rw [currentAt, curType, h3]
    simp [h1]

end PruneCfg
end Verif
