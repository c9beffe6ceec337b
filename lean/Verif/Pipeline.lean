import Verif.ChaseExamples

/-!
# Program transformations: exports, default outputs and unused rules (C31)

Models /repo/nemo/src/rule_model/pipeline/transformations/{active,exports,set_default_outputs}.rs, the part of the default
pipeline (default.rs:40-65) that decides which statements of a program are evaluated, and the functions of
/repo/nemo/src/rule_model/programs.rs that they use.
-/

set_option linter.unusedSimpArgs false
set_option linter.unusedSectionVars false
set_option linter.unusedDecidableInType false

namespace Verif
variable {α : Type}

/-- `Statement` (/repo/nemo/src/rule_model/components/statement.rs:30-45).  A rule is represented by its normalized form, an
import directive by the rows that it delivers; parameters have no content here, and of an export only the predicate
matters. -/
inductive Stmt (α : Type)
  | rule (r : NRule α)
  | fact (p : Tag) (row : List α)
  | imp (p : Tag) (rows : List (List α))
  | exp (p : Tag)
  | out (p : Tag)
  | param

namespace Stmt
/-- the rule of a statement -/
def rule? : Stmt α → Option (NRule α) | .rule r => some r | _ => none
/-- the predicate of a fact -/
def fact? : Stmt α → Option Tag | .fact p _ => some p | _ => none
/-- the predicate of an import -/
def imp? : Stmt α → Option Tag | .imp p _ => some p | _ => none
/-- the predicate of an export -/
def exp? : Stmt α → Option Tag | .exp p => some p | _ => none
/-- the predicate of an output -/
def out? : Stmt α → Option Tag | .out p => some p | _ => none
end Stmt

/-- `rules` (programs.rs:80-85) -/
def Stmt.rules (P : List (Stmt α)) : List (NRule α) := P.filterMap Stmt.rule?
/-- `outputs` (programs.rs:96-101) -/
def Stmt.outputs (P : List (Stmt α)) : List Tag := P.filterMap Stmt.out?
/-- `exports` (programs.rs:72-77) -/
def Stmt.exports (P : List (Stmt α)) : List Tag := P.filterMap Stmt.exp?
/-- `import_predicates` (programs.rs:130-134) -/
def Stmt.importPreds (P : List (Stmt α)) : List Tag := P.filterMap Stmt.imp?
/-- the predicates of the facts of a program -/
def Stmt.factPreds (P : List (Stmt α)) : List Tag := P.filterMap Stmt.fact?
/-- The predicates of the literals in the body of a rule (`literal.predicate()` is `None` for operations). -/
def NRule.bodyPreds (r : NRule α) : List Tag := r.predsPositive ++ r.predsNegative
/-- `derived_predicates` (programs.rs:137-145) -/
def Stmt.derivedPreds (P : List (Stmt α)) : List Tag := (Stmt.rules P).flatMap (·.predsHead) ++ Stmt.factPreds P
/-- `all_predicates` (programs.rs:112-127) -/
def Stmt.allPreds (P : List (Stmt α)) : List Tag :=
  (Stmt.rules P).flatMap (fun r => r.predsHead ++ r.bodyPreds) ++ Stmt.factPreds P

/-! ## The transformation that removes unused statements -/

/-- `HashSet::insert` -/
def insertTag (ps : List Tag) (p : Tag) : List Tag := if p ∈ ps then ps else ps ++ [p]

/-- The body of the loop over the rules (active.rs:38-54); `x` is a rule with its identifier, `s` are the sets
`predicates` and `rules`. -/
def requireRule (s : List Tag × List Nat) (x : NRule α × Nat) : List Tag × List Nat :=
  if x.2 ∈ s.2 then s
  else if x.1.predsHead.any fun p => decide (p ∈ s.1) then (x.1.bodyPreds.foldl insertTag s.1, s.2 ++ [x.2])
  else s

/-- One pass through all rules (active.rs:38-54).  The identifier of a rule is its position. -/
def requirePass (rules : List (NRule α)) (s : List Tag × List Nat) : List Tag × List Nat :=
  rules.zipIdx.foldl requireRule s

/-- The body predicates that are not in the set; used for termination only. -/
def missingPreds (rules : List (NRule α)) (ps : List Tag) : Nat :=
  ((rules.flatMap (·.bodyPreds)).filter fun p => !decide (p ∈ ps)).length

theorem mem_insertTag {ps : List Tag} {p q : Tag} : q ∈ insertTag ps p ↔ q ∈ ps ∨ q = p := by
  unfold insertTag
  split
  · rename_i h
    exact ⟨Or.inl, fun h' => h'.elim id fun e => e ▸ h⟩
  · simp

theorem mem_foldl_insertTag {qs ps : List Tag} {q : Tag} : q ∈ qs.foldl insertTag ps ↔ q ∈ ps ∨ q ∈ qs := by
  induction qs generalizing ps with
  | nil => simp
  | cons a qs ih => rw [List.foldl_cons, ih, mem_insertTag]; simp [or_assoc]

/-- inserting keeps the elements, and does nothing iff the length is unchanged -/
theorem foldl_insertTag_prefix (qs ps : List Tag) : ∃ t, qs.foldl insertTag ps = ps ++ t := by
  induction qs generalizing ps with
  | nil => exact ⟨[], by simp⟩
  | cons a qs ih =>
    obtain ⟨t, ht⟩ := ih (insertTag ps a)
    rw [List.foldl_cons, ht]
    unfold insertTag
    split
    · exact ⟨t, rfl⟩
    · exact ⟨a :: t, by simp⟩

theorem foldl_insertTag_new (qs ps t : List Tag) (h : qs.foldl insertTag ps = ps ++ t) : ∀ q ∈ t, q ∉ ps := by
  induction qs generalizing ps t with
  | nil =>
    have : t = [] := by simpa using h.symm
    subst this; simp
  | cons a qs ih =>
    rw [List.foldl_cons] at h
    unfold insertTag at h
    split at h
    · exact ih ps t h
    · rename_i ha
      obtain ⟨t', ht'⟩ := foldl_insertTag_prefix qs (ps ++ [a])
      have e : t = a :: t' := by
        have := ht'.symm.trans h
        rw [List.append_assoc] at this
        exact (List.append_cancel_left this).symm
      subst e
      intro q hq
      rcases List.mem_cons.1 hq with rfl | hq
      · exact ha
      · have := ih (ps ++ [a]) t' ht' q hq
        simp only [List.mem_append, not_or] at this
        exact this.1

/-- What a pass does to the set of predicates. -/
theorem foldl_requireRule_prefix (xs : List (NRule α × Nat)) (s : List Tag × List Nat) :
    ∃ t, (xs.foldl requireRule s).1 = s.1 ++ t ∧ (∀ q ∈ t, q ∉ s.1) ∧ ∀ q ∈ t, ∃ x ∈ xs, q ∈ x.1.bodyPreds := by
  induction xs generalizing s with
  | nil => exact ⟨[], by simp⟩
  | cons x xs ih =>
    rw [List.foldl_cons]
    obtain ⟨t, h1, h2, h3⟩ := ih (requireRule s x)
    have hx : ∃ u, (requireRule s x).1 = s.1 ++ u ∧ (∀ q ∈ u, q ∉ s.1) ∧ ∀ q ∈ u, q ∈ x.1.bodyPreds := by
      unfold requireRule
      split
      · exact ⟨[], by simp⟩
      split
      · obtain ⟨u, hu⟩ := foldl_insertTag_prefix x.1.bodyPreds s.1
        have hn := foldl_insertTag_new _ _ _ hu
        refine ⟨u, hu, hn, fun q hq => ?_⟩
        have : q ∈ x.1.bodyPreds.foldl insertTag s.1 := by rw [hu]; simp [hq]
        exact (mem_foldl_insertTag.1 this).resolve_left (hn q hq)
      · exact ⟨[], by simp⟩
    obtain ⟨u, hu1, hu2, hu3⟩ := hx
    refine ⟨u ++ t, by rw [h1, hu1, List.append_assoc], ?_, ?_⟩
    · intro q hq
      rcases List.mem_append.1 hq with hq | hq
      · exact hu2 q hq
      · intro hc; exact h2 q hq (by rw [hu1]; simp [hc])
    · intro q hq
      rcases List.mem_append.1 hq with hq | hq
      · exact ⟨x, List.mem_cons_self, hu3 q hq⟩
      · obtain ⟨y, hy, hq⟩ := h3 q hq
        exact ⟨y, List.mem_cons_of_mem _ hy, hq⟩

theorem missing_lt {rules : List (NRule α)} {s : List Tag × List Nat} (h : (requirePass rules s).1.length ≠ s.1.length) :
    missingPreds rules (requirePass rules s).1 < missingPreds rules s.1 := by
  obtain ⟨t, h1, h2, h3⟩ := foldl_requireRule_prefix rules.zipIdx s
  have hr : (requirePass rules s).1 = s.1 ++ t := h1
  rw [hr] at h ⊢
  obtain ⟨q, t', rfl⟩ : ∃ q t', t = q :: t' := by
    cases t with
    | nil => simp at h
    | cons q t' => exact ⟨q, t', rfl⟩
  obtain ⟨⟨r, i⟩, hx, hq⟩ := h3 q List.mem_cons_self
  unfold missingPreds
  have hsub : List.Sublist ((rules.flatMap (·.bodyPreds)).filter fun p => !decide (p ∈ s.1 ++ q :: t'))
      (((rules.flatMap (·.bodyPreds)).filter fun p => !decide (p ∈ s.1)).filter fun p => !decide (p = q)) := by
    rw [List.filter_filter]
    apply List.monotone_filter_right
    intro a ha
    simp only [Bool.not_eq_true', decide_eq_false_iff_not, List.mem_append, List.mem_cons, not_or] at ha
    simp [ha.1, ha.2.1]
  refine lt_of_le_of_lt hsub.length_le ?_
  refine List.length_filter_lt_length_iff_exists.2 ⟨q, ?_, by simp⟩
  rw [List.mem_filter]
  refine ⟨List.mem_flatMap.2 ⟨r, ?_, hq⟩, by simp [h2 q List.mem_cons_self]⟩
  have := List.mem_zipIdx_iff_getElem?.1 hx
  exact List.mem_of_getElem? this

/-- The loop of `required` (active.rs:34-55); `count` is `required_count`.  The definition is accepted because each further
pass finds a new predicate, so the loop of the code terminates. -/
def requireLoop (rules : List (NRule α)) (count : Nat) (s : List Tag × List Nat) : List Tag × List Nat :=
  if count = s.1.length then s
  else requireLoop rules s.1.length (requirePass rules s)
termination_by 2 * missingPreds rules s.1 + if count = s.1.length then 0 else 1
decreasing_by
  rename_i hne
  rw [if_neg hne]
  by_cases h : s.1.length = (requirePass rules s).1.length
  · rw [if_pos h]
    have : missingPreds rules (requirePass rules s).1 ≤ missingPreds rules s.1 := by
      obtain ⟨t, h1, _, _⟩ := foldl_requireRule_prefix rules.zipIdx s
      have hr : (requirePass rules s).1 = s.1 ++ t := h1
      rw [hr] at h ⊢
      have : t = [] := by
        rw [List.length_append] at h
        exact List.eq_nil_of_length_eq_zero (by omega)
      subst this; simp
    omega
  · have := missing_lt (rules := rules) (s := s) (fun e => h e.symm)
    rw [if_neg h]; omega

/-- `required` (active.rs:22-58): the predicates and the positions of the rules that are needed. -/
def required (P : List (Stmt α)) : List Tag × List Nat :=
  requireLoop (Stmt.rules P) 0 ((Stmt.outputs P ++ Stmt.exports P).foldl insertTag [], [])

/-- The loop over the statements (active.rs:67-88); `k` is the position of the next rule. -/
def keepLoop (ps : List Tag) (ks : List Nat) : Nat → List (Stmt α) → List (Stmt α)
  | _, [] => []
  | k, .rule r :: P => if k ∈ ks then .rule r :: keepLoop ps ks (k + 1) P else keepLoop ps ks (k + 1) P
  | k, .fact p row :: P => if p ∈ ps then .fact p row :: keepLoop ps ks k P else keepLoop ps ks k P
  | k, .imp p rows :: P => if p ∈ ps then .imp p rows :: keepLoop ps ks k P else keepLoop ps ks k P
  | k, .exp p :: P => .exp p :: keepLoop ps ks k P
  | k, .out p :: P => .out p :: keepLoop ps ks k P
  | k, .param :: P => .param :: keepLoop ps ks k P

/-- `TransformationActive::apply` (active.rs:62-91) -/
def active (P : List (Stmt α)) : List (Stmt α) := keepLoop (required P).1 (required P).2 0 P

/-! ## The transformations that set exports and outputs -/

/-- `ExportParameters` (/repo/nemo/src/execution/execution_parameters.rs:18-35) -/
inductive ExportParams
  | keep
  | nothing
  | idb
  | edb
  | all
deriving DecidableEq

/-- The decision of the first loop (exports.rs:39-56) -/
def keepExport (derived : List Tag) (par : ExportParams) : Stmt α → Bool
  | .exp p => match par with
    | .keep => true
    | .nothing => false
    | .idb => decide (p ∈ derived)
    | .edb => !decide (p ∈ derived)
    | .all => false
  | _ => true

/-- The predicates for which exports are added (exports.rs:59-79) -/
def addedExports (P : List (Stmt α)) : ExportParams → List Tag
  | .all => (Stmt.allPreds P).filter fun p => !decide (p ∈ Stmt.exports P)
  | .idb => (Stmt.derivedPreds P).filter fun p => !decide (p ∈ Stmt.exports P)
  | .edb => (Stmt.importPreds P).filter fun p => !decide (p ∈ Stmt.exports P)
  | .keep => []
  | .nothing => []

/-- `TransformationExports::apply` (exports.rs:33-82); the sets that the code iterates over have no repetitions. -/
def exportsT (par : ExportParams) (P : List (Stmt α)) : List (Stmt α) :=
  P.filter (keepExport (Stmt.derivedPreds P) par) ++ (addedExports P par).dedup.map .exp

/-- `TransformationSetDefaultOutputs::apply` (set_default_outputs.rs:18-30) -/
def setDefaultOutputs (P : List (Stmt α)) : List (Stmt α) :=
  if Stmt.outputs P = [] ∧ Stmt.exports P = [] then P ++ (Stmt.derivedPreds P).dedup.map .out else P

/-- The part of the default pipeline (default.rs:52-65) that selects statements. -/
def selectStatements (par : ExportParams) (P : List (Stmt α)) : List (Stmt α) :=
  active (setDefaultOutputs (exportsT par P))

/-! ## Specification -/

/-- The facts that a program is given. -/
def Stmt.Given (P : List (Stmt α)) : Interp α :=
  fun p row => .fact p row ∈ P ∨ ∃ rows, .imp p rows ∈ P ∧ row ∈ rows

/-- The predicates that are asked for: those with an output or export statement. -/
def Stmt.Requested (P : List (Stmt α)) (p : Tag) : Prop := .out p ∈ P ∨ .exp p ∈ P

/-- The predicates whose facts may influence the requested ones: requested predicates, and those in the body of
a rule with such a predicate in the head. -/
inductive Relevant (P : List (Stmt α)) : Tag → Prop
  | requested {p : Tag} : Stmt.Requested P p → Relevant P p
  | body {r : NRule α} {p q : Tag} : .rule r ∈ P → p ∈ r.predsHead → Relevant P p →
      q ∈ r.predsPositive ∨ q ∈ r.predsNegative → Relevant P q

/-! ## The computed set -/

theorem Stmt.mem_rules {P : List (Stmt α)} {r : NRule α} : r ∈ Stmt.rules P ↔ .rule r ∈ P := by
  unfold Stmt.rules
  rw [List.mem_filterMap]
  constructor
  · rintro ⟨s, hs, h⟩
    cases s <;> simp [Stmt.rule?] at h
    subst h; exact hs
  · intro h; exact ⟨_, h, rfl⟩

theorem Stmt.mem_outputs {P : List (Stmt α)} {p : Tag} : p ∈ Stmt.outputs P ↔ .out p ∈ P := by
  unfold Stmt.outputs
  rw [List.mem_filterMap]
  constructor
  · rintro ⟨s, hs, h⟩
    cases s <;> simp [Stmt.out?] at h
    subst h; exact hs
  · intro h; exact ⟨_, h, rfl⟩

theorem Stmt.mem_exports {P : List (Stmt α)} {p : Tag} : p ∈ Stmt.exports P ↔ .exp p ∈ P := by
  unfold Stmt.exports
  rw [List.mem_filterMap]
  constructor
  · rintro ⟨s, hs, h⟩
    cases s <;> simp [Stmt.exp?] at h
    subst h; exact hs
  · intro h; exact ⟨_, h, rfl⟩

theorem Stmt.mem_factPreds {P : List (Stmt α)} {p : Tag} : p ∈ Stmt.factPreds P ↔ ∃ row, .fact p row ∈ P := by
  unfold Stmt.factPreds
  rw [List.mem_filterMap]
  constructor
  · rintro ⟨s, hs, h⟩
    cases s <;> simp [Stmt.fact?] at h
    subst h; exact ⟨_, hs⟩
  · rintro ⟨row, h⟩; exact ⟨_, h, rfl⟩

theorem Stmt.mem_importPreds {P : List (Stmt α)} {p : Tag} : p ∈ Stmt.importPreds P ↔ ∃ rows, .imp p rows ∈ P := by
  unfold Stmt.importPreds
  rw [List.mem_filterMap]
  constructor
  · rintro ⟨s, hs, h⟩
    cases s <;> simp [Stmt.imp?] at h
    subst h; exact ⟨_, hs⟩
  · rintro ⟨row, h⟩; exact ⟨_, h, rfl⟩

theorem NRule.mem_bodyPreds {r : NRule α} {q : Tag} : q ∈ r.bodyPreds ↔ q ∈ r.predsPositive ∨ q ∈ r.predsNegative := by
  simp [NRule.bodyPreds]

/-- The invariant of the loop: the kept rules have a needed head, and all their body predicates are needed. -/
structure ReqInv (P : List (Stmt α)) (s : List Tag × List Nat) : Prop where
  requested : ∀ p, Stmt.Requested P p → p ∈ s.1
  relevant : ∀ p ∈ s.1, Relevant P p
  bound : ∀ k ∈ s.2, ∃ r, (Stmt.rules P)[k]? = some r ∧ (∃ p ∈ r.predsHead, p ∈ s.1) ∧ ∀ q ∈ r.bodyPreds, q ∈ s.1

theorem ReqInv.step {P : List (Stmt α)} {s : List Tag × List Nat} (h : ReqInv P s) {x : NRule α × Nat}
    (hx : (Stmt.rules P)[x.2]? = some x.1) : ReqInv P (requireRule s x) := by
  unfold requireRule
  split
  · exact h
  split
  · rename_i hk hany
    obtain ⟨p, hp, hps⟩ := List.any_eq_true.1 hany
    have hps : p ∈ s.1 := by simpa using hps
    refine ⟨fun p hp => mem_foldl_insertTag.2 (.inl (h.requested p hp)), ?_, ?_⟩
    · intro q hq
      rcases mem_foldl_insertTag.1 hq with hq | hq
      · exact h.relevant q hq
      · exact .body (Stmt.mem_rules.1 (List.mem_of_getElem? hx)) hp (h.relevant p hps) (NRule.mem_bodyPreds.1 hq)
    · intro k hk'
      rcases List.mem_append.1 hk' with hk' | hk'
      · obtain ⟨r, h1, ⟨p', h2, h3⟩, h4⟩ := h.bound k hk'
        exact ⟨r, h1, ⟨p', h2, mem_foldl_insertTag.2 (.inl h3)⟩, fun q hq => mem_foldl_insertTag.2 (.inl (h4 q hq))⟩
      · obtain rfl : k = x.2 := by simpa using hk'
        exact ⟨x.1, hx, ⟨p, hp, mem_foldl_insertTag.2 (.inl hps)⟩, fun q hq => mem_foldl_insertTag.2 (.inr hq)⟩
  · exact h

theorem ReqInv.steps {P : List (Stmt α)} (xs : List (NRule α × Nat)) (hx : ∀ x ∈ xs, (Stmt.rules P)[x.2]? = some x.1)
    {s : List Tag × List Nat} (h : ReqInv P s) : ReqInv P (xs.foldl requireRule s) := by
  induction xs generalizing s with
  | nil => exact h
  | cons x xs ih =>
    rw [List.foldl_cons]
    exact ih (fun y hy => hx y (List.mem_cons_of_mem _ hy)) (h.step (hx x List.mem_cons_self))

theorem ReqInv.pass {P : List (Stmt α)} {s : List Tag × List Nat} (h : ReqInv P s) :
    ReqInv P (requirePass (Stmt.rules P) s) := by
  refine ReqInv.steps _ ?_ h
  rintro ⟨r, k⟩ hx
  exact List.mem_zipIdx_iff_getElem?.1 hx

/-- positions are only added -/
theorem foldl_requireRule_keeps (xs : List (NRule α × Nat)) (s : List Tag × List Nat) :
    (∀ k ∈ s.2, k ∈ (xs.foldl requireRule s).2) ∧ ∀ p ∈ s.1, p ∈ (xs.foldl requireRule s).1 := by
  induction xs generalizing s with
  | nil => simp
  | cons x xs ih =>
    rw [List.foldl_cons]
    have h1 : (∀ k ∈ s.2, k ∈ (requireRule s x).2) ∧ ∀ p ∈ s.1, p ∈ (requireRule s x).1 := by
      unfold requireRule
      split
      · exact ⟨fun _ h => h, fun _ h => h⟩
      split
      · exact ⟨fun k h => by simp [h], fun p h => mem_foldl_insertTag.2 (.inl h)⟩
      · exact ⟨fun _ h => h, fun _ h => h⟩
    exact ⟨fun k hk => (ih _).1 k (h1.1 k hk), fun p hp => (ih _).2 p (h1.2 p hp)⟩

/-- a rule that is visited with a needed head is kept -/
theorem foldl_requireRule_visits (xs : List (NRule α × Nat)) (s : List Tag × List Nat) {x : NRule α × Nat} (hx : x ∈ xs)
    {p : Tag} (hp : p ∈ x.1.predsHead) (hs : p ∈ s.1) : x.2 ∈ (xs.foldl requireRule s).2 := by
  induction xs generalizing s with
  | nil => cases hx
  | cons y xs ih =>
    rw [List.foldl_cons]
    rcases List.mem_cons.1 hx with rfl | hx
    · apply (foldl_requireRule_keeps xs _).1
      unfold requireRule
      split
      · assumption
      split
      · simp
      · rename_i h
        exact absurd (List.any_eq_true.2 ⟨p, hp, by simpa using hs⟩) h
    · exact ih _ hx ((foldl_requireRule_keeps [y] s).2 p hs)

/-- The result of the loop. -/
structure ReqDone (P : List (Stmt α)) (s : List Tag × List Nat) : Prop extends ReqInv P s where
  done : ∀ k r, (Stmt.rules P)[k]? = some r → (∃ p ∈ r.predsHead, p ∈ s.1) → k ∈ s.2

theorem requireLoop_spec (P : List (Stmt α)) : ∀ (count : Nat) (s : List Tag × List Nat), ReqInv P s →
    (count = s.1.length → ∀ k r, (Stmt.rules P)[k]? = some r → (∃ p ∈ r.predsHead, p ∈ s.1) → k ∈ s.2) →
    ReqDone P (requireLoop (Stmt.rules P) count s) := by
  intro count s
  induction count, s using requireLoop.induct (rules := Stmt.rules P) with
  | case1 s =>
    intro h hd
    rw [requireLoop, if_pos rfl]
    exact ⟨h, hd rfl⟩
  | case2 count s hne ih =>
    intro h _
    rw [requireLoop, if_neg hne]
    refine ih h.pass fun hlen => ?_
    obtain ⟨t, h1, _, _⟩ := foldl_requireRule_prefix (Stmt.rules P).zipIdx s
    have hr : (requirePass (Stmt.rules P) s).1 = s.1 ++ t := h1
    have : t = [] := by
      rw [hr, List.length_append] at hlen
      exact List.eq_nil_of_length_eq_zero (by omega)
    subst this
    rw [List.append_nil] at hr
    rintro k r hk ⟨p, hp, hps⟩
    rw [hr] at hps
    exact foldl_requireRule_visits _ s (x := (r, k)) (List.mem_zipIdx_iff_getElem?.2 hk) hp hps

theorem required_spec (P : List (Stmt α)) : ReqDone P (required P) := by
  unfold required
  have hmem : ∀ p, p ∈ (Stmt.outputs P ++ Stmt.exports P).foldl insertTag [] ↔ Stmt.Requested P p := by
    intro p
    rw [mem_foldl_insertTag, List.mem_append, Stmt.mem_outputs, Stmt.mem_exports]
    simp [Stmt.Requested]
  refine requireLoop_spec P _ _ ⟨fun p hp => (hmem p).2 hp, fun p hp => .requested ((hmem p).1 hp), by simp⟩ ?_
  intro hlen k r hk ⟨p, _, hp⟩
  have : (Stmt.outputs P ++ Stmt.exports P).foldl insertTag [] = [] := List.eq_nil_of_length_eq_zero hlen.symm
  dsimp only at hp
  rw [this] at hp
  cases hp

/-- **The computed predicates are exactly the relevant ones.** -/
theorem required_iff (P : List (Stmt α)) (p : Tag) : p ∈ (required P).1 ↔ Relevant P p := by
  have h := required_spec P
  refine ⟨h.relevant p, fun hp => ?_⟩
  induction hp with
  | requested hp => exact h.requested _ hp
  | body hr hp _ hq ih =>
    obtain ⟨k, hk⟩ := List.getElem?_of_mem (Stmt.mem_rules.2 hr)
    have hks := h.done k _ hk ⟨_, hp, ih⟩
    obtain ⟨r', h1, _, h3⟩ := h.bound k hks
    rw [hk] at h1
    obtain rfl := Option.some.inj h1
    exact h3 _ (NRule.mem_bodyPreds.2 hq)

/-- The statements that are kept. -/
def Stmt.Needed (P : List (Stmt α)) : Stmt α → Prop
  | .rule r => ∃ p ∈ r.predsHead, Relevant P p
  | .fact p _ => Relevant P p
  | .imp p _ => Relevant P p
  | _ => True

theorem mem_keepLoop (ps : List Tag) (ks : List Nat) : ∀ (k : Nat) (P : List (Stmt α)) (s : Stmt α),
    s ∈ keepLoop ps ks k P ↔ match s with
      | .rule r => ∃ i, (Stmt.rules P)[i]? = some r ∧ k + i ∈ ks
      | .fact p row => .fact p row ∈ P ∧ p ∈ ps
      | .imp p rows => .imp p rows ∈ P ∧ p ∈ ps
      | .exp p => .exp p ∈ P
      | .out p => .out p ∈ P
      | .param => .param ∈ P := by
  intro k P
  induction P generalizing k with
  | nil => intro s; cases s <;> simp [keepLoop, Stmt.rules]
  | cons x P ih =>
    intro s
    cases x with
    | rule r =>
      have hrules : Stmt.rules (.rule r :: P) = r :: Stmt.rules P := rfl
      have hex : ∀ r', (∃ i, (r :: Stmt.rules P)[i]? = some r' ∧ k + i ∈ ks) ↔
          (r = r' ∧ k ∈ ks) ∨ ∃ i, (Stmt.rules P)[i]? = some r' ∧ k + 1 + i ∈ ks := by
        intro r'
        constructor
        · rintro ⟨i, h1, h2⟩
          cases i with
          | zero => exact .inl ⟨by simpa using h1, by simpa using h2⟩
          | succ i => exact .inr ⟨i, by simpa using h1, by rw [show k + 1 + i = k + (i + 1) by omega]; exact h2⟩
        · rintro (⟨h1, h2⟩ | ⟨i, h1, h2⟩)
          · exact ⟨0, by simp [h1], by simpa using h2⟩
          · exact ⟨i + 1, by simpa using h1, by rw [show k + (i + 1) = k + 1 + i by omega]; exact h2⟩
      rw [keepLoop, hrules]
      split
      · rename_i hk
        rw [List.mem_cons, ih (k + 1)]
        cases s with
        | rule r' =>
          dsimp only
          rw [hex]
          simp only [Stmt.rule.injEq, hk, and_true, eq_comm (a := r)]
        | _ => simp
      · rename_i hk
        rw [ih (k + 1)]
        cases s with
        | rule r' =>
          dsimp only
          rw [hex]
          simp only [hk, and_false, false_or]
        | _ => simp
    | fact p row =>
      have hrules : Stmt.rules (.fact p row :: P) = Stmt.rules P := rfl
      rw [keepLoop, hrules]
      split
      · rename_i hk
        rw [List.mem_cons, ih k]
        cases s <;> simp
        rename_i p' row'
        constructor
        · rintro (⟨rfl, rfl⟩ | h)
          · exact ⟨.inl ⟨rfl, rfl⟩, hk⟩
          · exact ⟨.inr h.1, h.2⟩
        · rintro ⟨⟨rfl, rfl⟩ | h, h2⟩
          · exact .inl ⟨rfl, rfl⟩
          · exact .inr ⟨h, h2⟩
      · rename_i hk
        rw [ih k]
        cases s <;> simp
        rename_i p' row'
        rintro h1 rfl _
        exact absurd h1 hk
    | imp p rows =>
      have hrules : Stmt.rules (.imp p rows :: P) = Stmt.rules P := rfl
      rw [keepLoop, hrules]
      split
      · rename_i hk
        rw [List.mem_cons, ih k]
        cases s <;> simp
        rename_i p' row'
        constructor
        · rintro (⟨rfl, rfl⟩ | h)
          · exact ⟨.inl ⟨rfl, rfl⟩, hk⟩
          · exact ⟨.inr h.1, h.2⟩
        · rintro ⟨⟨rfl, rfl⟩ | h, h2⟩
          · exact .inl ⟨rfl, rfl⟩
          · exact .inr ⟨h, h2⟩
      · rename_i hk
        rw [ih k]
        cases s <;> simp
        rename_i p' row'
        rintro h1 rfl _
        exact absurd h1 hk
    | exp p =>
      have hrules : Stmt.rules (.exp p :: P) = Stmt.rules P := rfl
      rw [keepLoop, hrules, List.mem_cons, ih k]
      cases s <;> simp
    | out p =>
      have hrules : Stmt.rules (.out p :: P) = Stmt.rules P := rfl
      rw [keepLoop, hrules, List.mem_cons, ih k]
      cases s <;> simp
    | param =>
      have hrules : Stmt.rules (.param :: P) = Stmt.rules P := rfl
      rw [keepLoop, hrules, List.mem_cons, ih k]
      cases s <;> simp

/-- **The transformation keeps exactly the needed statements.** -/
theorem mem_active (P : List (Stmt α)) (s : Stmt α) : s ∈ active P ↔ s ∈ P ∧ Stmt.Needed P s := by
  unfold active
  rw [mem_keepLoop]
  have h := required_spec P
  cases s with
  | rule r =>
    dsimp only [Stmt.Needed]
    constructor
    · rintro ⟨i, h1, h2⟩
      rw [Nat.zero_add] at h2
      obtain ⟨r', h3, ⟨p, hp, hps⟩, _⟩ := h.bound i h2
      rw [h1] at h3
      obtain rfl := Option.some.inj h3
      exact ⟨Stmt.mem_rules.1 (List.mem_of_getElem? h1), p, hp, h.relevant p hps⟩
    · rintro ⟨hr, p, hp, hrel⟩
      obtain ⟨k, hk⟩ := List.getElem?_of_mem (Stmt.mem_rules.2 hr)
      exact ⟨k, hk, by rw [Nat.zero_add]; exact h.done k r hk ⟨p, hp, (required_iff P p).2 hrel⟩⟩
  | fact p row => simp only [Stmt.Needed, required_iff]
  | imp p row => simp only [Stmt.Needed, required_iff]
  | exp p => simp only [Stmt.Needed, and_true]
  | out p => simp only [Stmt.Needed, and_true]
  | param => simp only [Stmt.Needed, and_true]

/-! ## Meaning -/

section meaning
variable [DecidableEq α] [Dom α]

theorem given_active (P : List (Stmt α)) (p : Tag) (row : List α) :
    Stmt.Given (active P) p row ↔ Stmt.Given P p row ∧ Relevant P p := by
  simp only [Stmt.Given, mem_active, Stmt.Needed]
  constructor
  · rintro (h | ⟨rows, h1, h2⟩)
    · exact ⟨.inl h.1, h.2⟩
    · exact ⟨.inr ⟨rows, h1.1, h2⟩, h1.2⟩
  · rintro ⟨h | ⟨rows, h1, h2⟩, h3⟩
    · exact .inl ⟨h, h3⟩
    · exact .inr ⟨rows, ⟨h1, h3⟩, h2⟩

theorem rules_active (P : List (Stmt α)) (r : NRule α) :
    r ∈ Stmt.rules (active P) ↔ r ∈ Stmt.rules P ∧ ∃ p ∈ r.predsHead, Relevant P p := by
  rw [Stmt.mem_rules, Stmt.mem_rules, mem_active]; rfl

theorem requested_active (P : List (Stmt α)) (p : Tag) : Stmt.Requested (active P) p ↔ Stmt.Requested P p := by
  simp [Stmt.Requested, mem_active, Stmt.Needed]

theorem Relevant.ofBody {P : List (Stmt α)} {r : NRule α} (hr : r ∈ Stmt.rules P) {p q : Tag} (hp : p ∈ r.predsHead)
    (h : Relevant P p) (hq : q ∈ r.predsPositive ∨ q ∈ r.predsNegative) : Relevant P q :=
  .body (Stmt.mem_rules.1 hr) hp h hq

theorem body_of_strict {r : NRule α} {q : Tag} (h : q ∈ r.predsStrict) : q ∈ r.predsPositive ∨ q ∈ r.predsNegative := by
  unfold NRule.predsStrict at h
  rcases List.mem_append.1 h with h | h
  · exact .inr h
  · split at h
    · exact .inl h
    · cases h

theorem derives_head {r : NRule α} {P N : Interp α} {p : Tag} {row : List α} (h : Derives r P N p row) :
    p ∈ r.predsHead := by
  unfold Derives at h
  cases h with
  | plain _ hi _ => exact List.mem_map.2 ⟨_, List.mem_of_getElem? hi, rfl⟩
  | agg _ _ hi => exact List.mem_map.2 ⟨_, List.mem_of_getElem? hi, rfl⟩

/-- **Removing unused statements does not change the meaning of relevant predicates**: each stable model of the program
agrees on them with a stable model of the remaining program. -/
theorem active_stable (P : List (Stmt α)) {M : Interp α} (hM : IsStable (Stmt.rules P) (Stmt.Given P) M) :
    ∃ M', IsStable (Stmt.rules (active P)) (Stmt.Given (active P)) M' ∧
      ∀ p, Relevant P p → ∀ row, M p row ↔ M' p row := by
  obtain ⟨M', hM'⟩ : ∃ M', M' = LeastModel (Stmt.rules (active P)) (Stmt.Given (active P)) M := ⟨_, rfl⟩
  have hclM : ClosedUnder (Stmt.rules P) (Stmt.Given P) M M := by
    have := leastModel_closed (Stmt.rules P) (Stmt.Given P) M
    rw [← hM] at this; exact this
  have hcl' : ClosedUnder (Stmt.rules (active P)) (Stmt.Given (active P)) M M' := by
    rw [hM']; exact leastModel_closed _ _ M
  have hle : M'.le M := by
    intro p row h
    rw [hM'] at h
    refine h M ⟨fun q row hq => hclM.1 q row ((given_active P q row).1 hq).1, fun r hr => ?_⟩
    exact hclM.2 r ((rules_active P r).1 hr).1
  have hagree : ∀ p, Relevant P p → ∀ row, M p row ↔ M' p row := by
    intro p hp row
    refine ⟨fun h => ?_, hle p row⟩
    rw [hM] at h
    refine h (fun p row => Relevant P p → M' p row) ⟨fun q row hq hrel => ?_, fun r hr q row hd hrel => ?_⟩ hp
    · exact hcl'.1 q row ((given_active P q row).2 ⟨hq, hrel⟩)
    · have hh := derives_head hd
      refine hcl'.2 r ((rules_active P r).2 ⟨hr, q, hh, hrel⟩) q row ?_
      refine (Derives.congr (fun s hs row => ?_) (fun s _ row => Iff.rfl) q row).1 hd
      have hrs := Relevant.ofBody hr hh hrel (.inl hs)
      exact ⟨fun h => h hrs, fun h _ => h⟩
  refine ⟨M', ?_, hagree⟩
  have hiff : ∀ I, ClosedUnder (Stmt.rules (active P)) (Stmt.Given (active P)) M I ↔
      ClosedUnder (Stmt.rules (active P)) (Stmt.Given (active P)) M' I := by
    intro I
    refine and_congr_right fun _ => forall_congr' fun r => forall_congr' fun hr => forall_congr' fun q =>
      forall_congr' fun row => ?_
    obtain ⟨hr1, p, hp, hrel⟩ := (rules_active P r).1 hr
    rw [Derives.congr (P := I) (P' := I) (N := M) (N' := M') (fun _ _ _ => Iff.rfl) (fun s hs row =>
      hagree s (Relevant.ofBody hr1 hp hrel (body_of_strict hs)) row)]
  unfold IsStable
  refine hM'.trans ?_
  funext p row
  exact propext (forall_congr' fun I => by rw [hiff I])

/-- **An accepted program is still accepted.** -/
theorem active_stratifiable (P : List (Stmt α)) (h : IsStratifiable (Stmt.rules P)) :
    IsStratifiable (Stmt.rules (active P)) := by
  obtain ⟨level, h⟩ := h
  exact ⟨level, fun r hr => h r ((rules_active P r).1 hr).1⟩

/-- The engine gets the facts of a program: the tables that are loaded are the ones that are given. -/
def Loads (P : List (Stmt α)) (edb : List (Tag × List (List α))) : Prop :=
  ∀ p row, edbFacts edb p row ↔ Stmt.Given P p row

theorem Loads.eq {P : List (Stmt α)} {edb : List (Tag × List (List α))} (h : Loads P edb) : edbFacts edb = Stmt.Given P := by
  funext p row; exact propext (h p row)

/-- **C31: unused-rule elimination does not change answers.**  The engine reports the same facts for all requested predicates
(and all those that they depend on), whether or not the unused rules, facts and imports are removed before. -/
theorem active_answers {cond cond' : Nat → List (Nat × Nat) → List (List Nat)} (hcond : CondOK cond)
    (hcond' : CondOK cond') {P : List (Stmt α)} {cfgs cfgs' : List RuleCfg} {arity : Tag → Nat}
    (hp : ProgOK (Stmt.rules P) cfgs arity) (hc' : cfgs'.length = (Stmt.rules (active P)).length)
    {edb edb' : List (Tag × List (List α))} (he : EdbOK edb arity) (he' : EdbOK edb' arity)
    (hl : Loads P edb) (hl' : Loads (active P) edb') {outs outs' : List Tag} {fuel fuel' : Nat} {st st' : Eng α}
    (h : Eng.execute cond (Stmt.rules P) cfgs outs fuel (Eng.init edb) = some (some st))
    (h' : Eng.execute cond' (Stmt.rules (active P)) cfgs' outs' fuel' (Eng.init edb') = some (some st'))
    {p : Tag} (hreq : Relevant P p) (row : List α) : row ∈ st.predicateRows p ↔ row ∈ st'.predicateRows p := by
  have hp' : ProgOK (Stmt.rules (active P)) cfgs' arity := ⟨fun r hr => hp.rule r ((rules_active P r).1 hr).1, hc'⟩
  have h1 := execute_stable hcond hp he h
  have h2 := execute_stable hcond' hp' he' h'
  rw [hl.eq] at h1
  rw [hl'.eq] at h2
  obtain ⟨M', hM', hag⟩ := active_stable P h1
  have hs : IsStratifiable (Stmt.rules (active P)) := by
    by_contra hc
    rw [(execute_rejects_iff hcond' _).2 hc] at h'
    simp at h'
  have := stable_unique hs hM' h2
  show st.answers p row ↔ st'.answers p row
  rw [hag p hreq row, this]

/-- The remaining program has the same models, as far as relevant predicates are concerned (also with existential rules). -/
theorem active_models (P : List (Stmt α)) (M : Interp α) :
    (IsModel (Stmt.rules P) (Stmt.Given P) M → IsModel (Stmt.rules (active P)) (Stmt.Given (active P)) M) ∧
    (IsModel (Stmt.rules (active P)) (Stmt.Given (active P)) M →
      ∃ M', IsModel (Stmt.rules P) (Stmt.Given P) M' ∧ ∀ p, Relevant P p → ∀ row, M p row ↔ M' p row) := by
  constructor
  · intro h
    exact ⟨fun p row hp => h.edb p row ((given_active P p row).1 hp).1,
      fun r hr => h.datalog r ((rules_active P r).1 hr).1, fun r hr => h.ex r ((rules_active P r).1 hr).1⟩
  · intro h
    have hag : ∀ p, Relevant P p → ∀ row, (fun p row => Relevant P p → M p row : Interp α) p row ↔ M p row :=
      fun p hp row => ⟨fun h => h hp, fun h _ => h⟩
    refine ⟨fun p row => Relevant P p → M p row, ⟨fun p row hg hrel => ?_, fun r hr hne p row hd hrel => ?_,
      fun r hr hex σ hb => ?_⟩, fun p hp row => (hag p hp row).symm⟩
    · exact h.edb p row ((given_active P p row).2 ⟨hg, hrel⟩)
    · have hh := derives_head hd
      refine h.datalog r ((rules_active P r).2 ⟨hr, p, hh, hrel⟩) hne p row ?_
      exact (Derives.congr (fun s hs row => hag s (Relevant.ofBody hr hh hrel (.inl hs)) row)
        (fun s hs row => hag s (Relevant.ofBody hr hh hrel (body_of_strict hs)) row) p row).1 hd
    · by_cases hk : ∃ p ∈ r.predsHead, Relevant P p
      · obtain ⟨p, hp, hrel⟩ := hk
        have hb' : BodyHolds r M M σ :=
          (BodyHolds.congr (fun s hs row => hag s (Relevant.ofBody hr hp hrel (.inl hs)) row)
            (fun s hs row => hag s (Relevant.ofBody hr hp hrel (.inr hs)) row) σ).1 hb
        obtain ⟨τ, h1, h2⟩ := h.ex r ((rules_active P r).2 ⟨hr, p, hp, hrel⟩) hex σ hb'
        exact ⟨τ, h1, fun hd hhd _ => h2 hd hhd⟩
      · refine ⟨σ, fun _ _ => rfl, fun hd hhd hrel => ?_⟩
        exact absurd ⟨hd.pred, List.mem_map.2 ⟨hd, hhd, rfl⟩, hrel⟩ hk

end meaning

/-- **C31, existential rules**: the certain answers are not changed. -/
theorem active_certain [DecidableEq α] [Dom α] [NullDom α] {cond cond' : Nat → List (Nat × Nat) → List (List Nat)}
    (hcond : CondOK cond)
    (hcond' : CondOK cond') {P : List (Stmt α)} {cfgs cfgs' : List RuleCfg} {arity : Tag → Nat}
    (hp : XProgOK (Stmt.rules P) cfgs arity) (hp' : XProgOK (Stmt.rules (active P)) cfgs' arity)
    {edb edb' : List (Tag × List (List α))} (he : XEdbOK edb cfgs arity) (he' : XEdbOK edb' cfgs' arity)
    (hpos : ∀ r ∈ Stmt.rules P, XPositive r)
    (hl : Loads P edb) (hl' : Loads (active P) edb') {outs outs' : List Tag} {fuel fuel' : Nat} {st st' : Eng α}
    (h : Eng.execute cond (Stmt.rules P) cfgs outs fuel (Eng.init edb) = some (some st))
    (h' : Eng.execute cond' (Stmt.rules (active P)) cfgs' outs' fuel' (Eng.init edb') = some (some st'))
    {p : Tag} (hreq : Relevant P p) (hn : ∀ cfg ∈ cfgs, p ≠ cfg.sat) (hn' : ∀ cfg ∈ cfgs', p ≠ cfg.sat)
    {row : List α} (hrow : ∀ a ∈ row, ∀ n, a ≠ Dom.null n) :
    row ∈ st.predicateRows p ↔ row ∈ st'.predicateRows p := by
  rw [execute_certain hcond hp he hpos h hn hrow,
    execute_certain hcond' hp' he' (fun r hr => hpos r ((rules_active P r).1 hr).1) h' hn' hrow, hl.eq, hl'.eq]
  constructor
  · intro hall M hM
    obtain ⟨M', hM', hag⟩ := (active_models P M).2 hM
    exact (hag p hreq row).2 (hall M' hM')
  · intro hall M hM
    exact hall M ((active_models P M).1 hM)

/-! ## Exports and default outputs -/

theorem mem_exportsT (par : ExportParams) (P : List (Stmt α)) (s : Stmt α) :
    s ∈ exportsT par P ↔ (s ∈ P ∧ keepExport (Stmt.derivedPreds P) par s = true) ∨ ∃ p ∈ addedExports P par, s = .exp p := by
  simp only [exportsT, List.mem_append, List.mem_filter, List.mem_map, List.mem_dedup, eq_comm]

theorem rules_exportsT (par : ExportParams) (P : List (Stmt α)) : Stmt.rules (exportsT par P) = Stmt.rules P := by
  unfold exportsT Stmt.rules
  rw [List.filterMap_append]
  have h1 : ∀ l : List Tag, (l.map Stmt.exp).filterMap (Stmt.rule? (α := α)) = [] := by
    intro l; induction l with
    | nil => rfl
    | cons a l ih => simp [Stmt.rule?]
  have h2 : ∀ (d : List Tag) (l : List (Stmt α)), (l.filter (keepExport d par)).filterMap Stmt.rule? = l.filterMap Stmt.rule? := by
    intro d l
    induction l with
    | nil => rfl
    | cons a l ih =>
      rw [List.filter_cons]
      split
      · rw [List.filterMap_cons, List.filterMap_cons, ih]
      · rename_i hk
        cases a with
        | exp p => rw [List.filterMap_cons, ih]; rfl
        | _ => exact absurd rfl hk
  rw [h1, h2, List.append_nil]

theorem given_exportsT (par : ExportParams) (P : List (Stmt α)) (p : Tag) (row : List α) :
    Stmt.Given (exportsT par P) p row ↔ Stmt.Given P p row := by
  simp [Stmt.Given, mem_exportsT, keepExport]

theorem mem_setDefaultOutputs (P : List (Stmt α)) (s : Stmt α) :
    s ∈ setDefaultOutputs P ↔ s ∈ P ∨ ((Stmt.outputs P = [] ∧ Stmt.exports P = []) ∧ ∃ p ∈ Stmt.derivedPreds P, s = .out p) := by
  unfold setDefaultOutputs
  split
  · rename_i h
    simp [h, eq_comm]
  · rename_i h
    simp only [h, false_and, or_false]

theorem rules_setDefaultOutputs (P : List (Stmt α)) : Stmt.rules (setDefaultOutputs P) = Stmt.rules P := by
  unfold setDefaultOutputs
  split
  · unfold Stmt.rules
    rw [List.filterMap_append]
    have h1 : ∀ l : List Tag, (l.map Stmt.out).filterMap (Stmt.rule? (α := α)) = [] := by
      intro l; induction l with
      | nil => rfl
      | cons a l ih => simp [Stmt.rule?]
    rw [h1, List.append_nil]
  · rfl

theorem given_setDefaultOutputs (P : List (Stmt α)) (p : Tag) (row : List α) :
    Stmt.Given (setDefaultOutputs P) p row ↔ Stmt.Given P p row := by
  simp [Stmt.Given, mem_setDefaultOutputs]

/-- **If a program does not ask for anything, it is evaluated completely**: the default outputs are all predicates that occur in
the head of a rule or in a fact.  Otherwise exactly those predicates are output that the program asks for. -/
theorem setDefaultOutputs_requested (P : List (Stmt α)) (p : Tag) :
    ((∃ q, Stmt.Requested P q) → (Stmt.Requested (setDefaultOutputs P) p ↔ Stmt.Requested P p)) ∧
    ((¬ ∃ q, Stmt.Requested P q) → (Stmt.Requested (setDefaultOutputs P) p ↔
      (∃ r, .rule r ∈ P ∧ p ∈ r.predsHead) ∨ ∃ row, .fact p row ∈ P)) := by
  have hd : p ∈ Stmt.derivedPreds P ↔ (∃ r, .rule r ∈ P ∧ p ∈ r.predsHead) ∨ ∃ row, .fact p row ∈ P := by
    simp [Stmt.derivedPreds, Stmt.mem_rules, Stmt.mem_factPreds]
  have hnil : (Stmt.outputs P = [] ∧ Stmt.exports P = []) ↔ ¬ ∃ q, Stmt.Requested P q := by
    rw [List.eq_nil_iff_forall_not_mem, List.eq_nil_iff_forall_not_mem]
    simp only [Stmt.mem_outputs, Stmt.mem_exports, Stmt.Requested]
    constructor
    · rintro ⟨h1, h2⟩ ⟨q, h | h⟩
      · exact h1 q h
      · exact h2 q h
    · intro h
      exact ⟨fun q hq => h ⟨q, .inl hq⟩, fun q hq => h ⟨q, .inr hq⟩⟩
  refine ⟨fun h => ?_, fun h => ?_⟩
  · have : ¬ (Stmt.outputs P = [] ∧ Stmt.exports P = []) := fun hc => hnil.1 hc h
    simp [Stmt.Requested, mem_setDefaultOutputs, this]
  · rw [← hd]
    have h' := hnil.2 h
    have hn : ¬ Stmt.Requested P p := fun hc => h ⟨p, hc⟩
    simp only [Stmt.Requested, not_or] at hn
    simp [Stmt.Requested, mem_setDefaultOutputs, h', hn]

/-- **Export settings.** `keep` and `nothing` do what they say; with `idb` the predicates that are exported are those in the
head of a rule or in a fact. -/
theorem exportsT_spec_partial (P : List (Stmt α)) (p : Tag) :
    (.exp p ∈ exportsT .keep P ↔ .exp p ∈ P) ∧ .exp p ∉ exportsT .nothing P ∧
    (.exp p ∈ exportsT .idb P ↔ (∃ r, .rule r ∈ P ∧ p ∈ r.predsHead) ∨ ∃ row, .fact p row ∈ P) ∧
    (∀ par, (.out p ∈ exportsT par P ↔ .out p ∈ P)) := by
  have hd : p ∈ Stmt.derivedPreds P ↔ (∃ r, .rule r ∈ P ∧ p ∈ r.predsHead) ∨ ∃ row, .fact p row ∈ P := by
    simp [Stmt.derivedPreds, Stmt.mem_rules, Stmt.mem_factPreds]
  refine ⟨by simp [mem_exportsT, keepExport, addedExports], by simp [mem_exportsT, keepExport, addedExports], ?_,
    fun par => by simp [mem_exportsT, keepExport]⟩
  rw [← hd]
  simp only [mem_exportsT, keepExport, addedExports, List.mem_filter, Stmt.exp.injEq, decide_eq_true_eq,
    Bool.not_eq_true', decide_eq_false_iff_not, Stmt.mem_exports]
  constructor
  · rintro (h | ⟨q, ⟨h1, _⟩, rfl⟩)
    · exact h.2
    · exact h1
  · intro h
    by_cases hp : Stmt.exp p ∈ P
    · exact .inl ⟨hp, h⟩
    · exact .inr ⟨p, ⟨h, hp⟩, rfl⟩

/-- With `all` exactly those predicates are exported that have no export statement in the program. -/
theorem exportsT_all (P : List (Stmt α)) (p : Tag) :
    .exp p ∈ exportsT .all P ↔ p ∈ Stmt.allPreds P ∧ .exp p ∉ P := by
  simp only [mem_exportsT, keepExport, addedExports, List.mem_filter, Stmt.exp.injEq, decide_eq_true_eq,
    Bool.not_eq_true', decide_eq_false_iff_not, Stmt.mem_exports]
  simp

/-- With `edb` exactly those predicates are exported that are imported and have no export statement, or have an export statement and
are not derived. -/
theorem exportsT_edb (P : List (Stmt α)) (p : Tag) :
    .exp p ∈ exportsT .edb P ↔ (.exp p ∈ P ∧ ¬ ((∃ r, .rule r ∈ P ∧ p ∈ r.predsHead) ∨ ∃ row, .fact p row ∈ P)) ∨
      (.exp p ∉ P ∧ ∃ rows, .imp p rows ∈ P) := by
  have hd : p ∈ Stmt.derivedPreds P ↔ (∃ r, .rule r ∈ P ∧ p ∈ r.predsHead) ∨ ∃ row, .fact p row ∈ P := by
    simp [Stmt.derivedPreds, Stmt.mem_rules, Stmt.mem_factPreds]
  rw [← hd]
  simp only [mem_exportsT, keepExport, addedExports, List.mem_filter, Stmt.exp.injEq, decide_eq_true_eq,
    Bool.not_eq_true', decide_eq_false_iff_not, Stmt.mem_exports, Stmt.mem_importPreds]
  constructor
  · rintro (h | ⟨q, h, rfl⟩)
    · exact .inl h
    · exact .inr h.symm
  · rintro (h | h)
    · exact .inl h
    · exact .inr ⟨p, h.symm, rfl⟩

/-- **Finding**: with the setting "export all predicates", the predicates with an explicit export are not exported. -/
theorem export_all_drops : ∃ (P : List (Stmt Nat)) (p : Tag), p ∈ Stmt.allPreds P ∧ .exp p ∈ P ∧
    .exp p ∉ exportsT .all P :=
  ⟨[.fact 0 [1], .exp 0], 0, by simp [Stmt.allPreds, Stmt.mem_factPreds], by simp, by rw [exportsT_all]; simp⟩

/-- **Finding**: with the setting "export all predicates for which facts are given or imported", the predicates for which
facts are given are not exported; with an explicit export, not even if the program asks for it. -/
theorem export_edb_drops : ∃ (P : List (Stmt Nat)) (p : Tag) (row : List Nat), .fact p row ∈ P ∧
    .exp p ∈ P ∧ .exp p ∉ exportsT .edb P :=
  ⟨[.fact 0 [1], .exp 0], 0, [1], by simp, by simp, by rw [exportsT_edb]; simp⟩

section select
variable [DecidableEq α] [Dom α]

theorem rules_select (par : ExportParams) (P : List (Stmt α)) :
    Stmt.rules (setDefaultOutputs (exportsT par P)) = Stmt.rules P := by
  rw [rules_setDefaultOutputs, rules_exportsT]

/-- **C31 for the default pipeline**: for each predicate that is output or exported in the end, the engine reports the same
facts as for the original program. -/
theorem select_answers {cond cond' : Nat → List (Nat × Nat) → List (List Nat)} (hcond : CondOK cond)
    (hcond' : CondOK cond') {par : ExportParams} {P : List (Stmt α)} {cfgs cfgs' : List RuleCfg} {arity : Tag → Nat}
    (hp : ProgOK (Stmt.rules P) cfgs arity) (hc' : cfgs'.length = (Stmt.rules (selectStatements par P)).length)
    {edb edb' : List (Tag × List (List α))} (he : EdbOK edb arity) (he' : EdbOK edb' arity)
    (hl : Loads P edb) (hl' : Loads (selectStatements par P) edb') {outs outs' : List Tag} {fuel fuel' : Nat}
    {st st' : Eng α}
    (h : Eng.execute cond (Stmt.rules P) cfgs outs fuel (Eng.init edb) = some (some st))
    (h' : Eng.execute cond' (Stmt.rules (selectStatements par P)) cfgs' outs' fuel' (Eng.init edb') = some (some st'))
    {p : Tag} (hreq : Stmt.Requested (selectStatements par P) p) (row : List α) :
    row ∈ st.predicateRows p ↔ row ∈ st'.predicateRows p := by
  rw [← rules_select par P] at h hp
  have hl2 : Loads (setDefaultOutputs (exportsT par P)) edb := fun q row => by
    rw [hl q row, given_setDefaultOutputs, given_exportsT]
  exact active_answers hcond hcond' hp hc' he he' hl2 hl' h h' (.requested ((requested_active _ _).1 hreq)) row

end select

/-! ## Example -/

namespace Example

/-- The program of `EngineExamples.lean`, of which only `path` is asked for. -/
def statements (edges : List (Nat × Nat)) (nodes : List Nat) : List (Stmt Nat) :=
  [.rule compl, .rule trans, .rule base, .imp 0 (edges.map fun e => [e.1, e.2]), .imp 2 (nodes.map fun n => [n]), .out 1]

example : required (statements [(1, 2), (2, 3)] [1, 2]) = ([1, 0], [1, 2]) := by decide +kernel

theorem statements_relevant (edges : List (Nat × Nat)) (nodes : List Nat) (p : Tag) :
    Relevant (statements edges nodes) p ↔ p = 0 ∨ p = 1 := by
  constructor
  · intro h
    induction h with
    | requested h => simp [Stmt.Requested, statements] at h; exact .inr h
    | body hr hp _ hq ih =>
      simp only [statements, List.mem_cons, Stmt.rule.injEq, reduceCtorEq, or_false, List.not_mem_nil] at hr
      rcases hr with rfl | rfl | rfl
      · rcases ih with rfl | rfl <;> simp [compl, NRule.predsHead] at hp
      · simp [trans, NRule.predsPositive, NRule.predsNegative] at hq
        exact hq.symm
      · simp [base, NRule.predsPositive, NRule.predsNegative] at hq
        exact .inl hq
  · have h1 : Relevant (statements edges nodes) 1 := .requested (by simp [Stmt.Requested, statements])
    rintro (rfl | rfl)
    · exact .body (r := base) (by simp [statements]) (by simp [base, NRule.predsHead]) h1
        (by simp [base, NRule.predsPositive])
    · exact h1

/-- For every graph, both programs are evaluated, and the assumptions of `active_answers` are satisfied. -/
theorem statements_answers (edges : List (Nat × Nat)) (nodes : List Nat) : ∃ cond fuel fuel' st st',
    CondOK cond ∧
    Eng.execute cond (Stmt.rules (statements edges nodes)) cfgs [1] fuel (Eng.init (input edges nodes)) = some (some st) ∧
    Eng.execute cond (Stmt.rules (active (statements edges nodes))) (cfgs.take 2) [1] fuel'
      (Eng.init [(0, edges.map fun e => [e.1, e.2])]) = some (some st') ∧
    (compl ∉ Stmt.rules (active (statements edges nodes))) ∧
    ∀ row, row ∈ st.predicateRows 1 ↔ row ∈ st'.predicateRows 1 := by
  obtain ⟨cond, hcond⟩ := exists_condOK
  obtain ⟨P, hP⟩ : ∃ P, P = statements edges nodes := ⟨_, rfl⟩
  have hrel : ∀ p, Relevant P p ↔ p = 0 ∨ p = 1 := hP ▸ statements_relevant edges nodes
  have hrules : Stmt.rules P = [compl, trans, base] := by rw [hP]; rfl
  have hmem : ∀ r ∈ Stmt.rules P, r ∈ prog := by
    rw [hrules]; intro r hr
    simp only [prog, List.mem_cons, List.not_mem_nil, or_false] at hr ⊢
    tauto
  have hp : ProgOK (Stmt.rules P) cfgs arity := ⟨fun r hr => prog_ok.rule r (hmem r hr), by rw [hrules]; rfl⟩
  have hs : IsStratifiable (Stmt.rules P) := by
    obtain ⟨level, hl⟩ := prog_stratifiable
    exact ⟨level, fun r hr => hl r (hmem r hr)⟩
  have hff : ∀ r ∈ Stmt.rules P, FunctionFree r := fun r hr => prog_functionFree r (hmem r hr)
  have hra : ∀ r, r ∈ Stmt.rules (active P) ↔ r = trans ∨ r = base := by
    intro r
    rw [rules_active, hrules]
    simp only [hrel]
    constructor
    · rintro ⟨h, p, hp, h2⟩
      simp only [List.mem_cons, List.not_mem_nil, or_false] at h
      rcases h with rfl | h
      · rcases h2 with rfl | rfl <;> simp [compl, NRule.predsHead] at hp
      · exact h
    · rintro (rfl | rfl)
      · exact ⟨by simp, 1, by simp [trans, NRule.predsHead], .inr rfl⟩
      · exact ⟨by simp, 1, by simp [base, NRule.predsHead], .inr rfl⟩
  have hreq : required P = ([1, 0], [1, 2]) := by
    have : required P = required (statements [] []) := by rw [hP]; rfl
    rw [this]; decide +kernel
  have hact : Stmt.rules (active P) = [trans, base] := by
    rw [active, hreq, hP]; rfl
  have hc' : (cfgs.take 2).length = (Stmt.rules (active P)).length := by rw [hact]; rfl
  have hp' : ProgOK (Stmt.rules (active P)) (cfgs.take 2) arity :=
    ⟨fun r hr => hp.rule r ((rules_active P r).1 hr).1, hc'⟩
  have he' : EdbOK [(0, edges.map fun e => [e.1, e.2])] arity :=
    ⟨by simp, fun x hx => (input_ok edges nodes).rows x (by simp at hx; simp [input, hx])⟩
  have hl : Loads P (input edges nodes) := by
    intro p row
    rw [hP]
    simp only [edbFacts, input, Stmt.Given, statements, List.mem_cons, Prod.mk.injEq, List.not_mem_nil, or_false,
      reduceCtorEq, Stmt.imp.injEq, false_or]
  have hl' : Loads (active P) [(0, edges.map fun e => [e.1, e.2])] := by
    intro p row
    rw [given_active, ← hl p row, hrel]
    simp only [edbFacts, input, List.mem_cons, Prod.mk.injEq, List.not_mem_nil, or_false]
    constructor
    · rintro ⟨t, ⟨rfl, rfl⟩, h⟩
      exact ⟨⟨_, .inl ⟨rfl, rfl⟩, h⟩, .inl rfl⟩
    · rintro ⟨⟨t, ⟨rfl, rfl⟩ | ⟨rfl, rfl⟩, h⟩, h2⟩
      · exact ⟨_, ⟨rfl, rfl⟩, h⟩
      · rcases h2 with h2 | h2 <;> cases h2
  obtain ⟨fuel, st, h⟩ := execute_terminates (outs := [1]) hcond hp (input_ok edges nodes) hs hff
  obtain ⟨fuel', st', h'⟩ := execute_terminates (outs := [1]) hcond hp' he' (active_stratifiable P hs)
    (fun r hr => hff r ((rules_active P r).1 hr).1)
  refine ⟨cond, fuel, fuel', st, st', hcond, hP ▸ h, hP ▸ h', ?_, fun row => ?_⟩
  · rw [← hP, hact]
    intro hc
    simp only [List.mem_cons, List.not_mem_nil, or_false] at hc
    have : compl.negative ≠ [] := by simp [compl]
    rcases hc with hc | hc <;> rw [hc] at this <;> exact this rfl
  · exact active_answers hcond hcond hp hc' (input_ok edges nodes) he' hl hl' h h' ((hrel 1).2 (.inr rfl)) row

end Example

end Verif
