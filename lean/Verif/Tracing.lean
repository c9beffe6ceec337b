import Verif.EngineSafety
import Verif.VariableOrder

/-!
# Tracing: explaining where a fact comes from

Model of `trace_recursive` and `trace_facts` (/repo/nemo/src/execution/execution_engine/tracing/simple.rs), the store of
traced facts (simple/storage.rs), the query for a rule application (/repo/nemo/src/execution/planning/strategy/tracing.rs)
and the trees and lists of inferences that are shown (/repo/nemo/src/execution/tracing/trace.rs).
`none` stands for a panic (or, in functions with fuel, for the end of the fuel).  Import clauses are not modelled.
-/

set_option linter.unusedSimpArgs false
set_option linter.unusedSectionVars false

namespace Verif
variable {α : Type} [DecidableEq α] [Dom α]

/-- `find_table_row` (/repo/nemo/src/table_manager.rs:747-757): the first step whose table contains the row. -/
def Eng.findTableRow (st : Eng α) (p : Tag) (row : List α) : Option Nat :=
  ((st.handlers p).single.find? fun e => decide (row ∈ st.rows e.2)).map (·.1)

namespace Trace
open VarOrder (derived)

/-- `GroundAtom` (/repo/nemo/src/execution/planning/normalization/atom/ground.rs) -/
abbrev GAtom (α : Type) := Tag × List α

/-- `TraceDerivation` (storage.rs:59-65), with the parts of `TraceRuleApplication` (17-52): rule, assignment, head atom. -/
inductive Derivation (α : Type)
  | input
  | derived (rule : Nat) (assignment : List (Variable × α)) (head : Nat) (subs : List Nat)

/-- `TraceStatus` (storage.rs:69-76) -/
inductive Status (α : Type)
  | unknown
  | success (d : Derivation α)
  | fail

/-- `is_success` (storage.rs:81-83) -/
def Status.isSuccess : Status α → Bool
  | .success _ => true
  | _ => false

/-- `is_known` (storage.rs:87-89) -/
def Status.isKnown : Status α → Bool
  | .unknown => false
  | _ => true

/-- `TracedFact` (storage.rs:94-99) -/
structure Traced (α : Type) where
  fact : GAtom α
  status : Status α

/-- `ExecutionTrace` (storage.rs:130-136); handles are indices. -/
abbrev Store (α : Type) := List (Traced α)

/-- `register_fact` (storage.rs:190-199) -/
def register (t : Store α) (f : GAtom α) : Store α × Nat :=
  match t.findIdx? fun x => decide (x.fact = f) with
  | some i => (t, i)
  | none => (t ++ [⟨f, .unknown⟩], t.length)

/-- `status` (storage.rs:206-208) -/
def status (t : Store α) (h : Nat) : Status α := (t[h]?.map (·.status)).getD .unknown

/-- `update_status` (storage.rs:215-217) -/
def update (t : Store α) (h : Nat) (s : Status α) : Store α := t.modify h fun x => { x with status := s }

/-- a look-up in a hash map -/
def lookup (g : List (Variable × α)) (v : Variable) : Option α := (g.find? fun x => decide (x.1 = v)).map (·.2)

/-- Unification of the terms of a head atom with those of a fact (simple.rs:85-117): the values of the head variables. -/
def unify : List (Primitive α × α) → List (Variable × α) → Option (List (Variable × α))
  | [], g => some g
  | (.const c, x) :: ts, g => if c = x then unify ts g else none
  | (.var v, x) :: ts, g =>
    if v.isExistential then unify ts g
    else match lookup g v with
      | some y => if y = x then unify ts g else none
      | none => unify ts (g ++ [(v, x)])

/-- What the model leaves open: the iteration order of the hash map of head variables (tracing.rs:50), and which row the
evaluation of the query finds first (`execute_first_match`, /repo/nemo-physical/src/management/database.rs:680-760). -/
structure Choice (α : Type) where
  perm : List (Variable × α) → List (Variable × α)
  first : List (List α) → Option (List α)

/-- the conditions for the head variables (tracing.rs:50-54) -/
def groundOps (g : List (Variable × α)) : List (Operation α) := g.map fun x => .equal (.var x.1) (.const x.2)

/-- The operations of the query (tracing.rs:47-54) -/
def traceOps (r : NRule α) (g : List (Variable × α)) : List (Operation α) := r.operations ++ groundOps g

/-- The join of the positive atoms over the tables before the step (tracing.rs:45, 61 and 94-102); a join without
atoms is the empty table (/repo/nemo-physical/src/tabular/operations/join.rs:107-110). -/
def traceJoin (src : Source α) (step : Nat) (r : NRule α) : Rel α :=
  if r.positive.isEmpty then ⟨[], []⟩
  else genJoin src step step r.order r.positive (r.positive.map fun _ => .old)

/-- The query (tracing.rs:43-80, 89-113) -/
def traceRel (src : Source α) (step : Nat) (r : NRule α) (g : List (Variable × α)) : Rel α :=
  (genFFN src step step (traceJoin src step r) (traceOps r g) r.negative).1

/-- `output_variables` (tracing.rs:68-72, 84-86): the columns of the query, in the variable order of the rule -/
def traceOutput (src : Source α) (step : Nat) (r : NRule α) (g : List (Variable × α)) : List Variable :=
  restrictOrder r.order (traceRel src step r g).cols

/-- `execute` (tracing.rs:118-125): the first row of the query; a table without columns has no first row
(/repo/nemo-physical/src/tabular/rowscan.rs:143). -/
def traceQuery (c : Choice α) (src : Source α) (step : Nat) (r : NRule α) (g : List (Variable × α)) : Option (List α) :=
  if (traceRel src step r g).cols.isEmpty then none else c.first (traceRel src step r g).rows

/-- Tracing the facts of the body (simple.rs:135-162); the result is `none` if one of them has no trace. -/
def traceBody (rec : Store α → GAtom α → Option (Store α × Nat)) (asg : List (Variable × α)) :
    List BodyAtom → Store α → List Nat → Option (Store α × Option (List Nat))
  | [], t, subs => some (t, some subs)
  | a :: as, t, subs => do
    let row ← a.terms.mapM (lookup asg)
    let x ← rec t (a.pred, row)
    if (status x.1 x.2).isSuccess then traceBody rec asg as x.1 (subs ++ [x.2]) else some (x.1, none)

/-- The loop over the head atoms (simple.rs:77-187) -/
def traceHeads (c : Choice α) (src : Source α) (rec : Store α → GAtom α → Option (Store α × Nat)) (f : GAtom α) (h i step : Nat)
    (r : NRule α) : List (HeadAtom α × Nat) → Store α → Option (Store α)
  | [], t => some (update t h .fail)
  | (hd, k) :: hs, t =>
    if hd.pred ≠ f.1 then traceHeads c src rec f h i step r hs t
    else match unify (hd.terms.zip f.2) [] with
      | none => traceHeads c src rec f h i step r hs t
      | some g => match traceQuery c src step r (c.perm g) with
        | none => traceHeads c src rec f h i step r hs t
        | some row => do
          let x ← traceBody rec ((traceOutput src step r (c.perm g)).zip row) r.positive t []
          match x.2 with
          | some subs => some (update x.1 h
              (.success (.derived i ((traceOutput src step r (c.perm g)).zip row) k subs)))
          | none => traceHeads c src rec f h i step r hs x.1

/-- `trace_recursive` (simple.rs:38-188) -/
def traceRec (c : Choice α) (rules : List (NRule α)) (st : Eng α) : Nat → Store α → GAtom α → Option (Store α × Nat)
  | 0, _, _ => none
  | n + 1, t, f =>
    if (status (register t f).1 (register t f).2).isKnown then some (register t f)
    else match st.findTableRow f.1 f.2 with
      | none => some (update (register t f).1 (register t f).2 .fail, (register t f).2)
      | some step =>
        if f.1 ∉ derived rules ∨ step = 0 then
          some (update (register t f).1 (register t f).2 (.success .input), (register t f).2)
        else do
          let i ← st.history[step]?
          let r ← rules[i]?
          let t' ← traceHeads c st.source (traceRec c rules st n) f (register t f).2 i step r r.head.zipIdx (register t f).1
          return (t', (register t f).2)

/-- `trace_ground_facts` (simple.rs:250-280) -/
def traceAll (c : Choice α) (rules : List (NRule α)) (st : Eng α) (fuel : Nat) :
    List (GAtom α) → Store α → Option (Store α × List Nat)
  | [], t => some (t, [])
  | f :: fs, t => do
    let x ← traceRec c rules st fuel t f
    let y ← traceAll c rules st fuel fs x.1
    return (y.1, x.2 :: y.2)

/-- `trace_facts` (simple.rs:192-213) for ground facts -/
def traceFacts (c : Choice α) (rules : List (NRule α)) (st : Eng α) (fuel : Nat) (fs : List (GAtom α)) :
    Option (Store α × List Nat) :=
  traceAll c rules st fuel fs []

/-! ## What is shown -/

/-- `ExecutionTraceTree` (trace.rs:93-98); rules are identified by their index. -/
inductive Tree (α : Type)
  | fact (f : GAtom α)
  | rule (rule : Nat) (assignment : List (Variable × α)) (head : Nat) (subs : List (Tree α))

/-- `tree` (trace.rs:200-229) -/
def tree (t : Store α) : Nat → Nat → Option (Tree α)
  | 0, _ => none
  | n + 1, h => match t[h]? with
    | some ⟨f, .success .input⟩ => some (.fact f)
    | some ⟨_, .success (.derived i asg k subs)⟩ => (subs.mapM (tree t n)).map (.rule i asg k)
    | _ => none

/-- `ExecutionTraceInference` (trace.rs:234-241) -/
structure Inference (α : Type) where
  trigger : Option (Nat × List (Variable × α))
  conclusion : GAtom α
  premises : List (GAtom α)

/-- `inference_from_derivation` (trace.rs:341-365) -/
def inference (t : Store α) (d : Derivation α) (f : GAtom α) : Inference α :=
  match d with
  | .input => ⟨none, f, []⟩
  | .derived i asg _ subs => ⟨some (i, asg), f, subs.filterMap fun h => t[h]?.map (·.fact)⟩

/-- the state of the loops of `list_of_inferences`; the top of the stack is the head of the list -/
structure ListSt (α : Type) where
  stack : List Nat
  inferences : List (Inference α)
  seen : List Nat

/-- The inner loop of `list_of_inferences` (trace.rs:381-400); the Boolean value is `successful_derivation`. -/
def listLoop (t : Store α) : Nat → ListSt α → Option (ListSt α × Bool)
  | 0, _ => none
  | _ + 1, ⟨[], inf, seen⟩ => some (⟨[], inf, seen⟩, true)
  | n + 1, ⟨h :: stack, inf, seen⟩ =>
    if h ∈ seen then listLoop t n ⟨stack, inf, seen⟩
    else match t[h]? with
      | some ⟨f, .success (.derived i asg k subs)⟩ =>
        listLoop t n ⟨subs.reverse ++ stack, inf ++ [inference t (.derived i asg k subs) f], h :: seen⟩
      | some ⟨f, .success .input⟩ => listLoop t n ⟨stack, inf ++ [inference t .input f], h :: seen⟩
      | _ => some (⟨stack, inf, h :: seen⟩, false)

/-- The outer loop of `list_of_inferences` (trace.rs:377-405): the final conclusions and the inferences. -/
def listOuter (t : Store α) (fuel : Nat) : List Nat → ListSt α → List (GAtom α) → Option (List (GAtom α) × List (Inference α))
  | [], s, concl => some (concl, s.inferences)
  | h :: hs, s, concl => do
    let x ← listLoop t fuel { s with stack := h :: s.stack }
    let f ← t[h]?
    listOuter t fuel hs x.1 (if x.2 then concl ++ [f.fact] else concl)

/-- `list_of_inferences` (trace.rs:368-411) -/
def listOfInferences (t : Store α) (fuel : Nat) (handles : List Nat) : Option (List (GAtom α) × List (Inference α)) :=
  listOuter t fuel handles ⟨handles.reverse, [], []⟩ []

end Trace
end Verif
