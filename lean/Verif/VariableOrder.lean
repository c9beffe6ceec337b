import Verif.Planning
import Verif.Permutation

/-!
# Variable orders (C44)

Model of /repo/nemo/src/execution/planning/analysis/variable_order.rs and of the assignment of the orders to rules in
`NormalizedProgram::normalize_program` (/repo/nemo/src/execution/planning/normalization/program.rs:310-329).  A
`VariableOrder` (a map from variables to positions) is represented by the list of variables in the order of their
positions.  Whatever the heuristics choose, the order of a rule lists each of its variables exactly once.
-/

set_option linter.unusedSimpArgs false
set_option linter.unusedSectionVars false
set_option linter.unusedVariables false

namespace Verif.VarOrder
variable {α : Type}

/-- `IterationOrder` (variable_order.rs:173-178) -/
inductive IterationOrder
  | forward
  | backward
  | insideOut

/-- `Permutator::sort_from_vec` (/repo/nemo-physical/src/permutator.rs:26-46) -/
def sortFromVec (data : List Nat) : List Nat :=
  (List.range data.length).mergeSort fun i j => decide (data.getD i 0 ≤ data.getD j 0)

/-- `Permutator::permute` (permutator.rs:49-65) for data of the same length -/
def permuteVars (sortVec : List Nat) (data : List Variable) : List Variable := sortVec.filterMap fun i => data[i]?

/-- `IterationOrder::get_permutator` (variable_order.rs:181-193) -/
def IterationOrder.permutator : IterationOrder → Nat → List Nat
  | .forward, n => sortFromVec (List.range n)
  | .backward, n => sortFromVec (List.range n).reverse
  | .insideOut, n => sortFromVec (((List.range (n / 2)).map fun i => i * 2 + 1).reverse ++
      (List.range ((n + 1) / 2)).map fun i => i * 2)

/-- The positions of the atom that are determined by the order (variable_order.rs:197-205) -/
def boundPositions (a : BodyAtom) (order : List Variable) : List Nat :=
  order.flatMap fun v => (a.terms.zipIdx.filter fun x => decide (x.1 = v)).map (·.2)

/-- `column_order_for` (variable_order.rs:196-217) -/
def columnOrderFor (a : BodyAtom) (order : List Variable) : Permut :=
  .fromVector (boundPositions a order ++ (List.range a.terms.length).filter fun i => decide (i ∉ boundPositions a order))

/-- The known column orders of each predicate (`HashMap<Tag, HashSet<ColumnOrder>>`) -/
abbrev ColOrders := List (Tag × Permut)

/-- `filter_cartesian_product` (variable_order.rs:236-257) -/
def filterCartesian (vars order : List Variable) (atoms : List BodyAtom) : List Variable :=
  let result := vars.filter fun v => atoms.any fun a => decide (v ∈ a.terms) && a.terms.any fun w => decide (w ∈ order)
  if result.isEmpty then vars else result

/-- the atoms that are counted for a variable (variable_order.rs:272-276) -/
def countedAtoms (v : Variable) (atoms : List BodyAtom) (pf : Tag → Bool) : List BodyAtom :=
  (atoms.filter fun a => pf a.pred).filter fun a => decide (v ∈ a.terms)

/-- The number of atoms that need a new order, and of all atoms, for a variable (variable_order.rs:268-291) -/
def ratio (order : List Variable) (atoms : List BodyAtom) (co : ColOrders) (pf : Tag → Bool) (v : Variable) : Nat × Nat :=
  ((countedAtoms v atoms pf).countP fun a => !decide ((a.pred, columnOrderFor a (order ++ [v])) ∈ co),
    (countedAtoms v atoms pf).length)

/-- the comparison of ratios (variable_order.rs:298-304): the first one is smaller -/
def ratioLt (a b : Nat × Nat) : Bool := if a.2 ≠ b.2 then decide (b.2 < a.2) else decide (a.1 < b.1)

/-- `Iterator::min_by`: the first minimum -/
def minBy (lt : Nat × Nat → Nat × Nat → Bool) : List (Nat × Nat) → Option (Nat × Nat)
  | [] => none
  | x :: xs => some (xs.foldl (fun m y => if lt y m then y else m) x)

/-- `filter_tries` (variable_order.rs:259-314) -/
def filterTries (vars order : List Variable) (atoms : List BodyAtom) (co : ColOrders) (pf : Tag → Bool) : List Variable :=
  vars.filter fun v => decide (some (ratio order atoms co pf v) = minBy ratioLt (vars.map (ratio order atoms co pf)))

/-- The choice of the next variable (variable_order.rs:435-457); `none` is the panic of `expect`. -/
def nextVar (remaining order : List Variable) (atoms : List BodyAtom) (co : ColOrders) (idb : List Tag) : Option Variable :=
  (filterTries (filterTries (filterCartesian remaining order atoms) order atoms co fun p => decide (p ∈ idb)) order atoms co
    fun p => !decide (p ∈ idb)).head?

/-- `update_trie_column_orders` (variable_order.rs:467-489) -/
def updateColOrders (order : List Variable) (next : Variable) (atoms : List BodyAtom) (co : ColOrders) : ColOrders :=
  co ++ (atoms.filter fun a => decide (next ∈ a.terms) && a.terms.all fun v => decide (v ∈ order)).map
    fun a => (a.pred, columnOrderFor a order)

/-- The loop of `generate_variable_order_for_rule` (variable_order.rs:434-462); the first argument bounds the number of
rounds (it is the number of remaining variables, so that the bound is never reached, see `orderLoop_spec`). -/
def orderLoop (atoms : List BodyAtom) (idb : List Tag) : Nat → List Variable → List Variable → ColOrders →
    Option (List Variable × ColOrders)
  | _, order, [], co => some (order, co)
  | 0, _, _ :: _, _ => none
  | n + 1, order, v :: vs, co =>
    match nextVar (v :: vs) order atoms co idb with
    | none => none
    | some next => orderLoop atoms idb n (order ++ [next]) ((v :: vs).filter fun w => !decide (w = next))
        (updateColOrders (order ++ [next]) next atoms co)

/-- the variables in the order of their first occurrence (variable_order.rs:415-425) -/
def firstOccurrences (vars : List Variable) : List Variable := vars.foldl (fun acc v => if v ∈ acc then acc else acc ++ [v]) []

/-- `generate_variable_order_for_rule` (variable_order.rs:412-465) -/
def orderForRule (it : IterationOrder) (idb : List Tag) (r : NRule α) (co : ColOrders) : Option (List Variable × ColOrders) :=
  let vars := firstOccurrences (atomVars r.positive)
  let vars := permuteVars (it.permutator vars.length) vars
  orderLoop r.positive idb vars.length [] vars co

/-- `get_already_present_idb_edb_count_for_rule_in_tries` (variable_order.rs:353-374) -/
def presentCount (idb : List Tag) (r : NRule α) (co : ColOrders) : Nat × Nat :=
  let preds := (r.positive.map (·.pred)).filter fun p => co.any fun x => decide (x.1 = p)
  (preds.countP fun p => decide (p ∈ idb), preds.countP fun p => !decide (p ∈ idb))

/-- the comparison of rules (variable_order.rs:387-398): the first one is greater -/
def countLt (a b : Nat × Nat) : Bool := if a.1 ≠ b.1 then decide (a.1 < b.1) else decide (a.2 < b.2)

/-- `Iterator::max_by`: the last maximum -/
def maxRule (idb : List Tag) (co : ColOrders) : List (Nat × NRule α) → Option (Nat × NRule α)
  | [] => none
  | x :: xs => some (xs.foldl (fun m y => if countLt (presentCount idb y.2 co) (presentCount idb m.2 co) then m else y) x)

/-- The loop of `generate_variable_orders` (variable_order.rs:384-406); the first argument is the number of remaining rules. -/
def ordersLoop (it : IterationOrder) (idb : List Tag) : Nat → List (Nat × NRule α) → ColOrders →
    Option (List (Nat × List Variable) × ColOrders)
  | _, [], co => some ([], co)
  | 0, _ :: _, _ => none
  | n + 1, x :: xs, co =>
    match maxRule idb co (x :: xs) with
    | none => none
    | some next =>
      match orderForRule it idb next.2 co with
      | none => none
      | some (order, co') =>
        match ordersLoop it idb n ((x :: xs).filter fun y => !decide (y.1 = next.1)) co' with
        | none => none
        | some (rest, co'') => some ((next.1, order) :: rest, co'')

/-- `generate_variable_orders` (variable_order.rs:376-410) -/
def generateOrders (it : IterationOrder) (idb : List Tag) (rules : List (NRule α)) (co : ColOrders) :
    Option (List (List Variable) × ColOrders) :=
  match ordersLoop it idb rules.length (rules.zipIdx.map fun x => (x.2, x.1)) co with
  | none => none
  | some (result, co') => some ((result.mergeSort fun a b => decide (a.1 ≤ b.1)).map (·.2), co')

/-- The collection of the orders of a rule without repetitions (variable_order.rs:554-558) -/
def collectOrders (orders : List (List Variable)) : List (List Variable) :=
  orders.foldl (fun acc o => if o ∈ acc then acc else acc ++ [o]) []

/-- `build_preferable_variable_orders` (variable_order.rs:517-567) and the choice of one order for each rule
(normalization/program.rs:311-325); `none` is a panic. -/
def preferableOrders (idb : List Tag) (rules : List (NRule α)) (co : ColOrders) : Option (List (List Variable)) := do
  let f ← generateOrders .forward idb rules co
  let b ← generateOrders .backward idb rules co
  let i ← generateOrders .insideOut idb rules co
  (List.range rules.length).mapM fun k => do
    let of ← f.1[k]?
    let ob ← b.1[k]?
    let oi ← i.1[k]?
    (collectOrders [of, ob, oi]).getLast?

/-- `Aggregation::variables` (normalization/aggregate.rs:101-113) -/
def _root_.Verif.Aggregation.vars (a : Aggregation) : List Variable := a.input :: a.output :: a.distinct ++ a.groupBy

/-- `NormalizedRule::variables` (normalization/rule.rs:265-312) -/
def _root_.Verif.NRule.vars (r : NRule α) : List Variable :=
  r.head.flatMap (·.vars) ++ atomVars r.positive ++ atomVars r.negative ++ r.operations.flatMap Operation.vars ++
    (r.aggregation.map fun a => a.1.vars).getD []

/-- `VariableOrder::extend` (variable_order.rs:147-156) -/
def extendOrder (order vars : List Variable) : List Variable := vars.foldl (fun acc v => if v ∈ acc then acc else acc ++ [v]) order

/-- The initial column orders (variable_order.rs:527-539): predicates with facts and imports -/
def initialColOrders (given : List Tag) : ColOrders := given.map fun p => (p, .fromVector [])

/-- The predicates that are derived (normalization/program.rs:216-219) -/
def derived (rules : List (NRule α)) : List Tag := rules.flatMap (·.predsHead)

/-- The part of `normalize_program` that sets the variable orders (normalization/program.rs:310-329). -/
def setOrders (given : List Tag) (rules : List (NRule α)) : Option (List (NRule α)) :=
  match preferableOrders (derived rules) rules (initialColOrders given) with
  | none => none
  | some orders => some ((rules.zip orders).map fun x => { x.1 with order := extendOrder x.2 x.1.vars })

/-! ## Proofs -/

theorem pushNew_spec (vars order : List Variable) (hn : order.Nodup) :
    (extendOrder order vars).Nodup ∧ ∀ v, v ∈ extendOrder order vars ↔ v ∈ order ∨ v ∈ vars := by
  induction vars generalizing order with
  | nil => exact ⟨hn, by simp [extendOrder]⟩
  | cons w ws ih =>
    have hstep : extendOrder order (w :: ws) = extendOrder (if w ∈ order then order else order ++ [w]) ws := rfl
    rw [hstep]
    by_cases hw : w ∈ order
    · rw [if_pos hw]
      refine ⟨(ih order hn).1, fun v => ?_⟩
      rw [(ih order hn).2, List.mem_cons]
      constructor
      · rintro (h | h)
        · exact .inl h
        · exact .inr (.inr h)
      · rintro (h | rfl | h)
        · exact .inl h
        · exact .inl hw
        · exact .inr h
    · rw [if_neg hw]
      have hn' : (order ++ [w]).Nodup := by
        rw [List.nodup_append]
        exact ⟨hn, List.nodup_singleton w, fun a ha b hb => by rw [List.mem_singleton.1 hb]; rintro rfl; exact hw ha⟩
      refine ⟨(ih _ hn').1, fun v => ?_⟩
      rw [(ih _ hn').2, List.mem_append, List.mem_singleton, List.mem_cons, or_assoc]

theorem firstOccurrences_spec (vars : List Variable) : (firstOccurrences vars).Nodup ∧
    ∀ v, v ∈ firstOccurrences vars ↔ v ∈ vars := by
  have := pushNew_spec vars [] List.nodup_nil
  exact ⟨this.1, fun v => (this.2 v).trans (by simp)⟩

theorem sortFromVec_perm (data : List Nat) : (sortFromVec data).Perm (List.range data.length) := List.mergeSort_perm _ _

theorem permutator_perm (it : IterationOrder) (n : Nat) : (it.permutator n).Perm (List.range n) := by
  cases it with
  | forward => simpa [IterationOrder.permutator] using sortFromVec_perm (List.range n)
  | backward => simpa [IterationOrder.permutator] using sortFromVec_perm (List.range n).reverse
  | insideOut =>
    have := sortFromVec_perm (((List.range (n / 2)).map fun i => i * 2 + 1).reverse ++
      (List.range ((n + 1) / 2)).map fun i => i * 2)
    have hl : (((List.range (n / 2)).map fun i => i * 2 + 1).reverse ++
      (List.range ((n + 1) / 2)).map fun i => i * 2).length = n := by simp; omega
    rw [hl] at this
    exact this

theorem permuteVars_perm (it : IterationOrder) (vars : List Variable) :
    (permuteVars (it.permutator vars.length) vars).Perm vars := by
  have h1 := (permutator_perm it vars.length).filterMap fun i => vars[i]?
  have h2 : (List.range vars.length).filterMap (fun i => vars[i]?) = vars := by
    have : ∀ l : List Variable, (List.range l.length).filterMap (fun i => l[i]?) = l := by
      intro l
      induction l with
      | nil => rfl
      | cons x xs ih =>
        rw [List.length_cons, List.range_succ_eq_map, List.filterMap_cons, List.filterMap_map]
        simp only [List.getElem?_cons_zero]
        congr 1
    exact this vars
  rw [h2] at h1
  exact h1

theorem minBy_mem (lt : Nat × Nat → Nat × Nat → Bool) {l : List (Nat × Nat)} {m : Nat × Nat} (h : minBy lt l = some m) : m ∈ l := by
  cases l with
  | nil => cases h
  | cons x xs =>
    cases h
    have : ∀ (ys : List (Nat × Nat)) (z : Nat × Nat), ys.foldl (fun m y => if lt y m then y else m) z ∈ z :: ys := by
      intro ys
      induction ys with
      | nil => intro z; simp
      | cons y ys ih =>
        intro z
        rw [List.foldl_cons]
        have := ih (if lt y z then y else z)
        rcases List.mem_cons.1 this with h | h
        · rw [h]; split <;> simp
        · exact List.mem_cons_of_mem _ (List.mem_cons_of_mem _ h)
    exact this xs x

theorem filterTries_sub {vars order : List Variable} {atoms : List BodyAtom} {co : ColOrders} {pf : Tag → Bool} {v : Variable}
    (h : v ∈ filterTries vars order atoms co pf) : v ∈ vars := (List.mem_filter.1 h).1

theorem filterTries_ne {vars order : List Variable} {atoms : List BodyAtom} {co : ColOrders} {pf : Tag → Bool}
    (h : vars ≠ []) : filterTries vars order atoms co pf ≠ [] := by
  obtain ⟨m, hm⟩ : ∃ m, minBy ratioLt (vars.map (ratio order atoms co pf)) = some m := by
    cases vars with
    | nil => exact absurd rfl h
    | cons x xs => exact ⟨_, rfl⟩
  have hin := minBy_mem ratioLt hm
  obtain ⟨v, hv, he⟩ := List.mem_map.1 hin
  intro hc
  have : v ∈ filterTries vars order atoms co pf := List.mem_filter.2 ⟨hv, by rw [hm, he]; simp⟩
  rw [hc] at this; cases this

theorem filterCartesian_sub {vars order : List Variable} {atoms : List BodyAtom} {v : Variable}
    (h : v ∈ filterCartesian vars order atoms) : v ∈ vars := by
  rw [filterCartesian] at h
  split at h
  · exact h
  · exact (List.mem_filter.1 h).1

theorem filterCartesian_ne {vars order : List Variable} {atoms : List BodyAtom} (h : vars ≠ []) :
    filterCartesian vars order atoms ≠ [] := by
  rw [filterCartesian]
  split
  · exact h
  · next hc => simpa using hc

theorem nextVar_spec {remaining : List Variable} (h : remaining ≠ []) (order : List Variable) (atoms : List BodyAtom)
    (co : ColOrders) (idb : List Tag) : ∃ v ∈ remaining, nextVar remaining order atoms co idb = some v := by
  unfold nextVar
  have hne := filterTries_ne (order := order) (atoms := atoms) (co := co) (pf := fun p => !decide (p ∈ idb))
    (filterTries_ne (order := order) (atoms := atoms) (co := co) (pf := fun p => decide (p ∈ idb))
      (filterCartesian_ne (order := order) (atoms := atoms) h))
  obtain ⟨v, vs, hv⟩ := List.exists_cons_of_ne_nil hne
  refine ⟨v, ?_, by rw [hv]; rfl⟩
  exact filterCartesian_sub (filterTries_sub (filterTries_sub (hv ▸ List.mem_cons_self)))

/-- The loop puts all remaining variables into the order. -/
theorem orderLoop_spec (atoms : List BodyAtom) (idb : List Tag) (n : Nat) (order remaining : List Variable) (co : ColOrders)
    (hn : remaining.Nodup) (hl : remaining.length ≤ n) :
    ∃ o co', orderLoop atoms idb n order remaining co = some (o, co') ∧ o.Perm (order ++ remaining) := by
  induction n generalizing order remaining co with
  | zero =>
    obtain rfl := List.length_eq_zero_iff.1 (Nat.le_zero.1 hl)
    exact ⟨order, co, rfl, by simp⟩
  | succ n ih =>
    cases remaining with
    | nil => exact ⟨order, co, rfl, by simp⟩
    | cons v vs =>
      obtain ⟨w, hw, hnext⟩ := nextVar_spec (List.cons_ne_nil v vs) order atoms co idb
      have herase : (v :: vs).filter (fun x => !decide (x = w)) = (v :: vs).erase w := by
        rw [hn.erase_eq_filter]
        refine List.filter_congr fun x _ => ?_
        by_cases h : x = w <;> simp [h]
      have hp := List.perm_cons_erase hw
      have hlen : ((v :: vs).erase w).length ≤ n := by
        rw [List.length_erase_of_mem hw]; simp at hl ⊢; omega
      obtain ⟨o, co', h1, h2⟩ := ih (order ++ [w]) ((v :: vs).erase w) (updateColOrders (order ++ [w]) w atoms co)
        (hn.erase w) hlen
      refine ⟨o, co', ?_, h2.trans ?_⟩
      · rw [orderLoop, hnext]
        dsimp only
        rw [herase]; exact h1
      · rw [List.append_assoc]
        exact (hp.symm).append_left order

theorem orderForRule_spec (it : IterationOrder) (idb : List Tag) (r : NRule α) (co : ColOrders) :
    ∃ o co', orderForRule it idb r co = some (o, co') ∧ o.Nodup ∧ ∀ v, v ∈ o ↔ v ∈ atomVars r.positive := by
  obtain ⟨f1, f2⟩ := firstOccurrences_spec (atomVars r.positive)
  have hp := permuteVars_perm it (firstOccurrences (atomVars r.positive))
  obtain ⟨o, co', h1, h2⟩ := orderLoop_spec r.positive idb _ [] _ co (hp.nodup_iff.2 f1) le_rfl
  refine ⟨o, co', h1, ?_, fun v => ?_⟩
  · exact (h2.nodup_iff).2 (hp.nodup_iff.2 f1)
  · rw [h2.mem_iff, List.nil_append, hp.mem_iff, f2]

theorem maxRule_spec (idb : List Tag) (co : ColOrders) {l : List (Nat × NRule α)} (h : l ≠ []) :
    ∃ x ∈ l, maxRule idb co l = some x := by
  cases l with
  | nil => exact absurd rfl h
  | cons x xs =>
    refine ⟨_, ?_, rfl⟩
    have : ∀ (ys : List (Nat × NRule α)) (z : Nat × NRule α), ys.foldl
        (fun m y => if countLt (presentCount idb y.2 co) (presentCount idb m.2 co) then m else y) z ∈ z :: ys := by
      intro ys
      induction ys with
      | nil => intro z; simp
      | cons y ys ih =>
        intro z
        rw [List.foldl_cons]
        have := ih (if countLt (presentCount idb y.2 co) (presentCount idb z.2 co) then z else y)
        rcases List.mem_cons.1 this with h | h
        · rw [h]; split <;> simp
        · exact List.mem_cons_of_mem _ (List.mem_cons_of_mem _ h)
    exact this xs x

/-- an order for a rule -/
def IsOrder (r : NRule α) (o : List Variable) : Prop := o.Nodup ∧ ∀ v, v ∈ o ↔ v ∈ atomVars r.positive

theorem ordersLoop_spec (it : IterationOrder) (idb : List Tag) (n : Nat) (l : List (Nat × NRule α)) (co : ColOrders)
    (hn : (l.map (·.1)).Nodup) (hl : l.length ≤ n) :
    ∃ res co', ordersLoop it idb n l co = some (res, co') ∧ (res.map (·.1)).Perm (l.map (·.1)) ∧
      ∀ k o, (k, o) ∈ res → ∀ r, (k, r) ∈ l → IsOrder r o := by
  induction n generalizing l co with
  | zero =>
    obtain rfl := List.length_eq_zero_iff.1 (Nat.le_zero.1 hl)
    exact ⟨[], co, rfl, .refl _, by simp⟩
  | succ n ih =>
    cases l with
    | nil => exact ⟨[], co, rfl, .refl _, by simp⟩
    | cons x xs =>
      obtain ⟨y, hy, hmax⟩ := maxRule_spec idb co (List.cons_ne_nil x xs)
      obtain ⟨o, co1, h1, h2, h3⟩ := orderForRule_spec it idb y.2 co
      set rest := (x :: xs).filter fun z => !decide (z.1 = y.1) with hrest
      -- removing the chosen rule
      have hmap : rest.map (·.1) = ((x :: xs).map (·.1)).erase y.1 := by
        rw [hn.erase_eq_filter, List.filter_map, hrest]
        congr 1
      have hym : y.1 ∈ (x :: xs).map (·.1) := List.mem_map.2 ⟨y, hy, rfl⟩
      have hlen : rest.length ≤ n := by
        have := congrArg List.length hmap
        rw [List.length_map, List.length_erase_of_mem hym, List.length_map] at this
        rw [this]; simp at hl ⊢; omega
      obtain ⟨res, co2, g1, g2, g3⟩ := ih rest co1 (by rw [hmap]; exact hn.erase _) hlen
      refine ⟨(y.1, o) :: res, co2, ?_, ?_, ?_⟩
      · rw [ordersLoop, hmax]
        dsimp only
        rw [h1]
        dsimp only
        rw [g1]
      · rw [List.map_cons]
        refine .trans (.cons y.1 g2) ?_
        rw [hmap]
        exact (List.perm_cons_erase hym).symm
      · intro k o' hko r hr
        rcases List.mem_cons.1 hko with h | h
        · cases h
          have : (y.1, r) = y := by
            have := List.inj_on_of_nodup_map hn hr hy rfl
            exact this
          have : r = y.2 := congrArg Prod.snd this
          subst this
          exact ⟨h2, h3⟩
        · refine g3 k o' h r (List.mem_filter.2 ⟨hr, ?_⟩)
          have hk : k ∈ rest.map (·.1) := g2.mem_iff.1 (List.mem_map.2 ⟨_, h, rfl⟩)
          obtain ⟨z, hz, rfl⟩ := List.mem_map.1 hk
          exact (List.mem_filter.1 hz).2

theorem generateOrders_spec (it : IterationOrder) (idb : List Tag) (rules : List (NRule α)) (co : ColOrders) :
    ∃ res co', generateOrders it idb rules co = some (res, co') ∧ res.length = rules.length ∧
      ∀ (k : Nat) r o, rules[k]? = some r → res[k]? = some o → IsOrder r o := by
  have hmap : (rules.zipIdx.map fun x => (x.2, x.1)).map (·.1) = List.range rules.length := by
    rw [List.map_map]
    exact List.zipIdx_map_snd 0 rules |>.trans (List.range_eq_range').symm
  obtain ⟨res, co', h1, h2, h3⟩ := ordersLoop_spec it idb rules.length (rules.zipIdx.map fun x => (x.2, x.1)) co
    (by rw [hmap]; exact List.nodup_range) (by simp)
  rw [hmap] at h2
  have hsorted : ((res.mergeSort fun a b => decide (a.1 ≤ b.1)).map (·.1)) = List.range rules.length := by
    have hp : ((res.mergeSort fun a b => decide (a.1 ≤ b.1)).map (·.1)).Perm (List.range rules.length) :=
      ((List.mergeSort_perm res _).map _).trans h2
    refine List.Perm.eq_of_pairwise (le := (· ≤ ·)) (fun a b _ _ h1 h2 => Nat.le_antisymm h1 h2) ?_ ?_ hp
    · rw [List.pairwise_map]
      have := List.pairwise_mergeSort (le := fun (a b : Nat × List Variable) => decide (a.1 ≤ b.1))
        (fun a b c hab hbc => by simp only [decide_eq_true_eq] at *; omega)
        (fun a b => by simp only [Bool.or_eq_true, decide_eq_true_eq]; omega) res
      exact this.imp fun h => by simpa using h
    · exact List.pairwise_lt_range.imp fun h => Nat.le_of_lt h
  refine ⟨_, co', by rw [generateOrders, h1], ?_, ?_⟩
  · rw [List.length_map]
    have := congrArg List.length hsorted
    simpa using this
  · intro k r o hr ho
    rw [List.getElem?_map, Option.map_eq_some_iff] at ho
    obtain ⟨⟨k', o'⟩, hk, rfl⟩ := ho
    have hk' : ((res.mergeSort fun a b => decide (a.1 ≤ b.1)).map (·.1))[k]? = some k' := by rw [List.getElem?_map, hk]; rfl
    rw [hsorted, List.getElem?_eq_some_iff] at hk'
    obtain ⟨_, hk'⟩ := hk'
    rw [List.getElem_range] at hk'
    subst hk'
    refine h3 k o' ?_ r ?_
    · exact List.mem_mergeSort.1 (List.mem_of_getElem? hk)
    · exact List.mem_map.2 ⟨(r, k), List.mem_zipIdx_iff_getElem?.2 hr, rfl⟩

theorem collectOrders_last (orders : List (List Variable)) (h : orders ≠ []) :
    ∃ o ∈ orders, (collectOrders orders).getLast? = some o := by
  have key : ∀ (l acc : List (List Variable)), (l.foldl (fun acc o => if o ∈ acc then acc else acc ++ [o]) acc ≠ [] ↔
      acc ≠ [] ∨ l ≠ []) ∧ ∀ o ∈ l.foldl (fun acc o => if o ∈ acc then acc else acc ++ [o]) acc, o ∈ acc ∨ o ∈ l := by
    intro l
    induction l with
    | nil => intro acc; simp
    | cons x xs ih =>
      intro acc
      rw [List.foldl_cons]
      by_cases hx : x ∈ acc
      · rw [if_pos hx]
        have hne : acc ≠ [] := List.ne_nil_of_mem hx
        refine ⟨by simp [(ih acc).1, hne], fun o ho => ?_⟩
        rcases (ih acc).2 o ho with h | h
        · exact .inl h
        · exact .inr (List.mem_cons_of_mem _ h)
      · rw [if_neg hx]
        refine ⟨by simp [(ih (acc ++ [x])).1], fun o ho => ?_⟩
        rcases (ih (acc ++ [x])).2 o ho with h | h
        · rcases List.mem_append.1 h with h | h
          · exact .inl h
          · exact .inr (by rw [List.mem_singleton.1 h]; exact List.mem_cons_self)
        · exact .inr (List.mem_cons_of_mem _ h)
  have hne : collectOrders orders ≠ [] := ((key orders []).1).2 (.inr h)
  refine ⟨(collectOrders orders).getLast hne, ?_, List.getLast?_eq_some_getLast hne⟩
  rcases (key orders []).2 _ (List.getLast_mem hne) with h | h
  · cases h
  · exact h

theorem preferableOrders_spec (idb : List Tag) (rules : List (NRule α)) (co : ColOrders) :
    ∃ orders, preferableOrders idb rules co = some orders ∧ orders.length = rules.length ∧
      ∀ (k : Nat) r o, rules[k]? = some r → orders[k]? = some o → IsOrder r o := by
  obtain ⟨f, cf, f1, f2, f3⟩ := generateOrders_spec .forward idb rules co
  obtain ⟨b, cb, b1, b2, b3⟩ := generateOrders_spec .backward idb rules co
  obtain ⟨i, ci, i1, i2, i3⟩ := generateOrders_spec .insideOut idb rules co
  have hk : ∀ k ∈ List.range rules.length, ∃ o, (do
      let of ← f[k]?
      let ob ← b[k]?
      let oi ← i[k]?
      (collectOrders [of, ob, oi]).getLast?) = some o ∧ ∀ r, rules[k]? = some r → IsOrder r o := by
    intro k hk
    rw [List.mem_range] at hk
    have hf : f[k]? = some f[k] := List.getElem?_eq_getElem (by omega)
    have hb : b[k]? = some b[k] := List.getElem?_eq_getElem (by omega)
    have hi : i[k]? = some i[k] := List.getElem?_eq_getElem (by omega)
    obtain ⟨o, ho, hl⟩ := collectOrders_last [f[k], b[k], i[k]] (by simp)
    refine ⟨o, by rw [hf, hb, hi]; exact hl, fun r hr => ?_⟩
    simp only [List.mem_cons, List.not_mem_nil, or_false] at ho
    rcases ho with rfl | rfl | rfl
    · exact f3 k r _ hr hf
    · exact b3 k r _ hr hb
    · exact i3 k r _ hr hi
  have key : ∀ (l : List Nat) (F : Nat → Option (List Variable)) (Q : Nat → List Variable → Prop),
      (∀ k ∈ l, ∃ o, F k = some o ∧ Q k o) → ∃ os, l.mapM F = some os ∧ os.length = l.length ∧
        ∀ (j : Nat) k o, l[j]? = some k → os[j]? = some o → Q k o := by
    intro l F Q
    induction l with
    | nil => intro _; exact ⟨[], rfl, rfl, by simp⟩
    | cons x xs ih =>
      intro h
      obtain ⟨o, ho, hq⟩ := h x List.mem_cons_self
      obtain ⟨os, h1, h2, h3⟩ := ih fun k hk => h k (List.mem_cons_of_mem _ hk)
      refine ⟨o :: os, by simp [List.mapM_cons, ho, h1], by simp [h2], ?_⟩
      intro j k o' hj ho'
      rcases j with _ | j
      · simp only [List.getElem?_cons_zero, Option.some.injEq] at hj ho'
        subst hj ho'; exact hq
      · exact h3 j k o' (by simpa using hj) (by simpa using ho')
  obtain ⟨os, h1, h2, h3⟩ := key _ _ (fun k o => ∀ r, rules[k]? = some r → IsOrder r o) hk
  refine ⟨os, ?_, by simpa using h2, ?_⟩
  · rw [preferableOrders, f1, b1, i1]
    exact h1
  · intro k r o hr ho
    refine h3 k k o ?_ ho r hr
    rw [List.getElem?_range (List.getElem?_eq_some_iff.1 hr).1]

/-- **C44.**  The computation of variable orders never fails, does not change rules otherwise, and the order
of each rule lists each of its variables exactly once. -/
theorem setOrders_spec (given : List Tag) (rules : List (NRule α)) :
    ∃ rules', setOrders given rules = some rules' ∧ rules'.length = rules.length ∧
      ∀ (k : Nat) r, rules[k]? = some r → ∃ order, rules'[k]? = some { r with order := order } ∧ order.Nodup ∧
        ∀ v, v ∈ order ↔ v ∈ r.vars := by
  obtain ⟨orders, h1, h2, h3⟩ := preferableOrders_spec (derived rules) rules (initialColOrders given)
  refine ⟨_, by rw [setOrders, h1], by simp [h2], ?_⟩
  intro k r hr
  have hk : k < rules.length := (List.getElem?_eq_some_iff.1 hr).1
  have ho : orders[k]? = some orders[k] := List.getElem?_eq_getElem (by omega)
  have hord := h3 k r _ hr ho
  obtain ⟨e1, e2⟩ := pushNew_spec r.vars orders[k] hord.1
  refine ⟨extendOrder orders[k] r.vars, ?_, e1, fun v => ?_⟩
  · rw [List.getElem?_map, List.getElem?_zip_eq_some (z := (r, orders[k])) |>.2 ⟨hr, ho⟩]
    rfl
  · rw [e2, hord.2]
    constructor
    · rintro (h | h)
      · simp only [NRule.vars, List.mem_append]
        exact .inl (.inl (.inl (.inr h)))
      · exact h
    · exact .inr

end Verif.VarOrder
