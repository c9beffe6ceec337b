import Mathlib.Data.List.Basic
import Mathlib.Data.List.Induction

/-!
# Versions of a program

Model of how programs are stored while they are transformed: `ProgramPipeline` (/repo/nemo/src/rule_model/pipeline.rs), `ProgramCommit`
(/repo/nemo/src/rule_model/pipeline/commit.rs), `ProgramRevision` (/repo/nemo/src/rule_model/pipeline/revision.rs), `ProgramHandle`
(/repo/nemo/src/rule_model/programs/handle.rs), `Program` (/repo/nemo/src/rule_model/programs/program.rs), component ids
(/repo/nemo/src/rule_model/pipeline/id.rs, arena.rs) and the resolution of origins (/repo/nemo/src/execution/tracing/resolve_origin.rs).
-/

namespace Verif.Rev

/-! ## Ids -/

/-- `Id<Statement>` (arena.rs:85-94) -/
structure Id where
  arena : Nat
  offset : Nat
deriving DecidableEq, Repr

/-- `ProgramComponentId` (id.rs:11-19); u32 is simplified to natural numbers -/
structure ComponentId where
  statement : Option Id
  component : Nat
deriving DecidableEq, Repr

/-- `ProgramComponentId::UNASSIGNED` (id.rs:24-27) -/
def unassigned : ComponentId := ⟨none, 4294967295⟩

/-- `new_statement` (id.rs:41-46) -/
def newStatementId (i : Id) : ComponentId := ⟨some i, 0⟩

/-- `increment_component` (id.rs:66-74) -/
def ComponentId.increment (i : ComponentId) : ComponentId := if i = unassigned then i else ⟨i.statement, i.component + 1⟩

/-- `PartialOrd` of `Id` (arena.rs:119-128): by arena, then by offset -/
def Id.lt (i j : Id) : Bool := i.arena < j.arena || (i.arena == j.arena && i.offset < j.offset)

/-- The derived order of `Option<Id>` -/
def optLt : Option Id → Option Id → Bool
  | none, none => false
  | none, some _ => true
  | some _, none => false
  | some i, some j => i.lt j

/-- `PartialOrd` of `ProgramComponentId` (id.rs:93-100) -/
def ComponentId.lt (i j : ComponentId) : Bool := optLt i.statement j.statement || (i.statement == j.statement && i.component < j.component)

/-! ## Components -/

/-- The kinds of `Statement` (/repo/nemo/src/rule_model/components/statement.rs) -/
inductive Kind where
  | rule | fact | imp | exp | output | parameter
deriving DecidableEq, Repr

/-- A component (trait `ProgramComponent`): its content, its id and its children -/
inductive Tree (α : Type) where
  | node (content : α) (id : ComponentId) (children : List (Tree α))

/-- The content of a component and of its children: what is written, without ids -/
inductive Shape (α : Type) where
  | node (content : α) (children : List (Shape α))

variable {α : Type}

def Tree.id : Tree α → ComponentId
  | .node _ i _ => i

def Tree.children : Tree α → List (Tree α)
  | .node _ _ cs => cs

mutual
/-- The component without ids -/
def Tree.shape : Tree α → Shape α
  | .node a _ cs => .node a (shapes cs)
def shapes : List (Tree α) → List (Shape α)
  | [] => []
  | c :: cs => c.shape :: shapes cs
end

mutual
/-- `register_component` and `set_id` (pipeline.rs:149-156, 159-170): the component gets the id `i`, and each of its children gets the successor of `i` -/
def Tree.register : Tree α → ComponentId → Tree α
  | .node a _ cs, i => .node a i (registers cs i)
def registers : List (Tree α) → ComponentId → List (Tree α)
  | [], _ => []
  | c :: cs, i => c.register i.increment :: registers cs i
end

mutual
/-- `find_child_component` (pipeline.rs:83-104) -/
def Tree.find : Tree α → ComponentId → Option (Tree α)
  | .node _ _ cs, i => findIn cs i
/-- The loop (pipeline.rs:87-103): the last child before the first one whose id is larger -/
def findIn : List (Tree α) → ComponentId → Option (Tree α)
  | [], _ => none
  | [c], i => if c.id = i then some c else if c.id.lt i then c.find i else none
  | c :: d :: cs, i =>
    if i.lt d.id then (if c.id = i then some c else if c.id.lt i then c.find i else none)
    else findIn (d :: cs) i
end

/-! ## Statements and revisions -/

/-- `Statement`: the kind, the origin if it is one of `Normalization`, `Global`, `Incremental`, `MergeSparql` (origin.rs), and the components.
All other origins are `none`. -/
structure Statement (α : Type) where
  kind : Kind
  origin : Option ComponentId
  tree : Tree α

/-- `register_statement` (pipeline.rs:159-170) -/
def Statement.register (s : Statement α) (i : ComponentId) : Statement α := { s with tree := s.tree.register i }

def Statement.id (s : Statement α) : ComponentId := s.tree.id

/-- `ValidationReport`: the errors and the warnings -/
structure Report where
  errors : List Nat
  warnings : List Nat
deriving DecidableEq, Repr

/-- `ProgramRevision` (revision.rs:6-13) -/
structure Revision where
  statements : List ComponentId
  report : Report

/-- `ProgramPipeline` (pipeline.rs:30-42).  The source is left out. -/
structure Pipeline (α : Type) where
  arena : Nat
  statements : List (Statement α)
  revisions : List Revision

/-- `statement` (pipeline.rs:122-124) and `Index for Arena` (arena.rs:32-42); `none` is a panic -/
def Pipeline.statement (p : Pipeline α) (i : ComponentId) : Option (Statement α) :=
  match i.statement with
  | none => none
  | some j => if j.arena ≠ p.arena then none else p.statements[j.offset]?

/-- `find_component` (pipeline.rs:109-116); the outer option is a panic -/
def Pipeline.findComponent (p : Pipeline α) (i : ComponentId) : Option (Option (Tree α)) :=
  match i.statement with
  | none => some none
  | some j =>
    if j.arena ≠ p.arena then none
    else match p.statements[j.offset]? with
      | none => none
      | some s => some (if i.component = 0 then some s.tree else s.tree.find i)

/-- `rule_by_id` (pipeline.rs:128-139); the outer option is a panic -/
def Pipeline.ruleById (p : Pipeline α) (i : ComponentId) : Option (Option (Statement α)) :=
  if i.component = 0 then
    match i.statement with
    | none => some none
    | some j =>
      if j.arena ≠ p.arena then none
      else match p.statements[j.offset]? with
        | none => none
        | some s => some (if s.kind = .rule then some s else none)
  else some none

/-- `new_statement` (pipeline.rs:173-183) -/
def Pipeline.newStatement (p : Pipeline α) (s : Statement α) : Pipeline α × ComponentId :=
  let i := newStatementId ⟨p.arena, p.statements.length⟩
  ({ p with statements := p.statements ++ [s.register i] }, i)

/-! ## Commits -/

/-- `StatementStatus` (commit.rs:15-21) -/
inductive Status where
  | existing (i : ComponentId)
  | fresh

/-- `ProgramCommit` (commit.rs:26-37); the pipeline is a parameter of the operations -/
structure Commit (α : Type) where
  new : List (Statement α)
  statements : List Status
  report : Report

/-- `fork`, `ProgramCommit::empty` (handle.rs:67-71, commit.rs:41-48) -/
def Commit.empty (r : Report) : Commit α := ⟨[], [], r⟩

/-- `fork_full`, `ProgramCommit::new` (handle.rs:74-79, commit.rs:51-65) -/
def Commit.full (r : Revision) : Commit α := ⟨[], r.statements.map .existing, r.report⟩

/-- `keep` (commit.rs:78-81) -/
def Commit.keep (c : Commit α) (i : ComponentId) : Commit α := { c with statements := c.statements ++ [.existing i] }

/-- `add_statement` (commit.rs:112-117) -/
def Commit.add (c : Commit α) (s : Statement α) : Commit α := { c with new := c.new ++ [s], statements := c.statements ++ [.fresh] }

/-- The loop of `submit` (commit.rs:89-102): the pipeline and the ids of the statements -/
def submitLoop : List Status → List (Statement α) → Pipeline α → Pipeline α × List ComponentId
  | [], _, p => (p, [])
  | .existing i :: ss, fresh, p =>
    let r := submitLoop ss fresh p
    (r.1, i :: r.2)
  | .fresh :: ss, [], p => submitLoop ss [] p
  | .fresh :: ss, s :: fresh, p =>
    let n := p.newStatement s
    let r := submitLoop ss fresh n.1
    (r.1, n.2 :: r.2)

/-- `submit` (commit.rs:84-109): the new pipeline and the new revision, or nothing if the report contains errors -/
def Commit.submit (c : Commit α) (p : Pipeline α) : Pipeline α × Option Nat :=
  if c.report.errors ≠ [] then (p, none)
  else
    let r := submitLoop c.statements c.new p
    ({ r.1 with revisions := r.1.revisions ++ [⟨r.2, c.report⟩] }, some r.1.revisions.length)

/-! ## Handles -/

/-- `statements` of a handle (handle.rs:141-148); the inner options are panics -/
def Pipeline.handleStatements (p : Pipeline α) (h : Nat) : Option (List (Option (Statement α))) :=
  (p.revisions[h]?).map fun r => r.statements.map p.statement

/-! ## All operations

Several commits to one pipeline may exist at the same time, also for different revisions. -/

/-- What a user of the interface holds: the pipeline and the commits that have not been submitted -/
structure World (α : Type) where
  pipeline : Pipeline α
  commits : List (Option (Commit α))

/-- The operations.  `h` and `i` are a handle and the position of a statement in its program, `c` is a commit. -/
inductive Op (α : Type) where
  | fork (h : Nat)
  | forkFull (h : Nat)
  | keep (c h i : Nat)
  | add (c : Nat) (kind : Kind) (t : Tree α)
  /-- add a statement that was made from a given one -/
  | addFrom (c h i : Nat) (t : Tree α)
  | error (c : Nat) (e : Nat)
  | warn (c : Nat) (e : Nat)
  | submit (c : Nat)

/-- The statement at a position of the program of a handle -/
def Pipeline.statementAt (p : Pipeline α) (h i : Nat) : Option (Statement α) :=
  (p.handleStatements h).bind fun l => (l[i]?).bind id

/-- Change a commit -/
def World.modify (w : World α) (c : Nat) (f : Commit α → Commit α) : World α :=
  match w.commits[c]? with
  | some (some k) => { w with commits := w.commits.set c (some (f k)) }
  | _ => w

/-- The effect of an operation.  Operations with handles, positions or commits that do not exist cannot be called, and do nothing. -/
def World.step (w : World α) : Op α → World α
  | .fork h => match w.pipeline.revisions[h]? with
    | some r => { w with commits := w.commits ++ [some (.empty r.report)] }
    | none => w
  | .forkFull h => match w.pipeline.revisions[h]? with
    | some r => { w with commits := w.commits ++ [some (.full r)] }
    | none => w
  | .keep c h i => match w.pipeline.statementAt h i with
    | some s => w.modify c fun k => k.keep s.id
    | none => w
  | .add c kind t => w.modify c fun k => k.add ⟨kind, none, t⟩
  | .addFrom c h i t => match w.pipeline.statementAt h i with
    | some s => w.modify c fun k => k.add ⟨s.kind, some s.id, t⟩
    | none => w
  | .error c e => w.modify c fun k => { k with report := { k.report with errors := k.report.errors ++ [e] } }
  | .warn c e => w.modify c fun k => { k with report := { k.report with warnings := k.report.warnings ++ [e] } }
  | .submit c => match w.commits[c]? with
    | some (some k) => ⟨(k.submit w.pipeline).1, w.commits.set c none⟩
    | _ => w

/-- A history of operations -/
def World.run (w : World α) (ops : List (Op α)) : World α := ops.foldl World.step w

/-- A new pipeline with an empty commit (`from_file`, `From<Program>`, handle.rs:53-58, 150-152) -/
def World.new (arena : Nat) : World α := ⟨⟨arena, [], []⟩, [some (.empty ⟨[], []⟩)]⟩

/-! ## Origins of rules -/

/-- `tracing_resolve_origin_id` (resolve_origin.rs:29-47), with at most `n` steps; `none` is a panic or an unfinished recursion -/
def Pipeline.resolve (p : Pipeline α) : Nat → ComponentId → Option ComponentId
  | 0, _ => none
  | n + 1, i => match p.ruleById i with
    | some (some s) => match s.origin with
      | none => some i
      | some j => p.resolve n j
    | _ => none

/-! ## `Program` -/

/-- `Program` (program.rs:19-29) -/
structure Program (σ : Type) where
  statements : List σ
  rules : List Nat

section program
variable {σ : Type}

/-- `add_statement`, and `add_rule` (program.rs:71-84) -/
def Program.add (kind : σ → Kind) (p : Program σ) (s : σ) : Program σ :=
  ⟨p.statements ++ [s], if kind s = .rule then p.rules ++ [p.statements.length] else p.rules⟩

/-- `clear_exports` (program.rs:46-48) -/
def Program.clearExports (kind : σ → Kind) (p : Program σ) : Program σ := { p with statements := p.statements.filter fun s => kind s ≠ .exp }

/-- `clear_imports` (program.rs:51-53) -/
def Program.clearImports (kind : σ → Kind) (p : Program σ) : Program σ := { p with statements := p.statements.filter fun s => kind s ≠ .imp }

/-- `rules` (program.rs:61-68); `none` is a panic -/
def Program.rulesOf (kind : σ → Kind) (p : Program σ) : List (Option σ) :=
  p.rules.map fun i => (p.statements[i]?).bind fun s => if kind s = .rule then some s else none

/-- `materialize` (handle.rs:96-104) -/
def materialize (kind : σ → Kind) (ss : List σ) : Program σ := ss.foldl (Program.add kind) ⟨[], []⟩

end program
end Verif.Rev
