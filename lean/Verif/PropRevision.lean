import Verif.Revision
import Mathlib.Data.List.Forall2


/-!
# Versions of a program (C61)

The specification: a handle is a list of statements, a commit is a list of statements that grows, and a submitted commit becomes a new handle.
Nothing else changes.  It has neither ids nor references.
-/

set_option linter.unusedSimpArgs false

namespace Verif.Rev
variable {α : Type}

/-! ## The specification -/

/-- A statement: its kind, what it says, and what the statement says that it was made from -/
structure SStatement (α : Type) where
  kind : Kind
  shape : Shape α
  root : Shape α

/-- The programs of the handles and of the commits -/
structure SWorld (α : Type) where
  handles : List (List (SStatement α) × Report)
  commits : List (Option (List (SStatement α) × Report))

def SWorld.modify (w : SWorld α) (c : Nat) (f : List (SStatement α) × Report → List (SStatement α) × Report) : SWorld α :=
  match w.commits[c]? with
  | some (some k) => { w with commits := w.commits.set c (some (f k)) }
  | _ => w

/-- The statement of a handle at a position -/
def SWorld.at (w : SWorld α) (h i : Nat) : Option (SStatement α) := w.handles[h]?.bind fun l => l.1[i]?

def SWorld.step (w : SWorld α) : Op α → SWorld α
  | .fork h => match w.handles[h]? with
    | some r => { w with commits := w.commits ++ [some ([], r.2)] }
    | none => w
  | .forkFull h => match w.handles[h]? with
    | some r => { w with commits := w.commits ++ [some r] }
    | none => w
  | .keep c h i => match w.at h i with
    | some s => w.modify c fun k => (k.1 ++ [s], k.2)
    | none => w
  | .add c kind t => w.modify c fun k => (k.1 ++ [⟨kind, t.shape, t.shape⟩], k.2)
  | .addFrom c h i t => match w.at h i with
    | some s => w.modify c fun k => (k.1 ++ [⟨s.kind, t.shape, s.root⟩], k.2)
    | none => w
  | .error c e => w.modify c fun k => (k.1, { k.2 with errors := k.2.errors ++ [e] })
  | .warn c e => w.modify c fun k => (k.1, { k.2 with warnings := k.2.warnings ++ [e] })
  | .submit c => match w.commits[c]? with
    | some (some k) => ⟨if k.2.errors = [] then w.handles ++ [k] else w.handles, w.commits.set c none⟩
    | _ => w

def SWorld.run (w : SWorld α) (ops : List (Op α)) : SWorld α := ops.foldl SWorld.step w

def SWorld.new : SWorld α := ⟨[], [some ([], ⟨[], []⟩)]⟩

/-! ## The relation of both -/

section shapes
mutual
theorem shape_register : ∀ (t : Tree α) (i : ComponentId), (t.register i).shape = t.shape
  | .node a _ cs, i => by rw [Tree.register, Tree.shape, Tree.shape, shapes_registers cs i]
theorem shapes_registers : ∀ (cs : List (Tree α)) (i : ComponentId), shapes (registers cs i) = shapes cs
  | [], _ => rfl
  | c :: cs, i => by rw [registers, shapes, shapes, shape_register c, shapes_registers cs i]
end
end shapes

/-- The `m`-th statement of the pipeline is the statement `d` of the specification. -/
inductive Desc (p : Pipeline α) : Nat → SStatement α → Prop where
  | base {m : Nat} {t : Tree α} {s : Statement α} (h : p.statements[m]? = some s) (ht : s.tree = t.register (newStatementId ⟨p.arena, m⟩)) (ho : s.origin = none) :
      Desc p m ⟨s.kind, t.shape, t.shape⟩
  | made {m j : Nat} {t : Tree α} {s : Statement α} {d : SStatement α} (h : p.statements[m]? = some s) (ht : s.tree = t.register (newStatementId ⟨p.arena, m⟩))
      (ho : s.origin = some (newStatementId ⟨p.arena, j⟩)) (hj : j < m) (hd : Desc p j d) (hk : d.kind = s.kind) : Desc p m ⟨s.kind, t.shape, d.root⟩

/-- An id of a statement -/
def Ref (p : Pipeline α) (i : ComponentId) (d : SStatement α) : Prop := ∃ m, i = newStatementId ⟨p.arena, m⟩ ∧ Desc p m d

/-- A statement that has been added to a commit -/
def NewRef (p : Pipeline α) (s : Statement α) (d : SStatement α) : Prop :=
  d.kind = s.kind ∧ d.shape = s.tree.shape ∧
    ((s.origin = none ∧ d.root = s.tree.shape) ∨ ∃ j d', s.origin = some (newStatementId ⟨p.arena, j⟩) ∧ Desc p j d' ∧ d'.kind = s.kind ∧ d.root = d'.root)

/-- The statements of a commit -/
inductive CommitRef (p : Pipeline α) : List Status → List (Statement α) → List (SStatement α) → Prop where
  | nil : CommitRef p [] [] []
  | existing {i : ComponentId} {d : SStatement α} {ss : List Status} {new : List (Statement α)} {l : List (SStatement α)} (h : Ref p i d) (hs : CommitRef p ss new l) :
      CommitRef p (.existing i :: ss) new (d :: l)
  | fresh {s : Statement α} {d : SStatement α} {ss : List Status} {new : List (Statement α)} {l : List (SStatement α)} (h : NewRef p s d) (hs : CommitRef p ss new l) :
      CommitRef p (.fresh :: ss) (s :: new) (d :: l)

/-- One commit -/
def OneCommit (p : Pipeline α) : Option (Commit α) → Option (List (SStatement α) × Report) → Prop
  | none, none => True
  | some c, some k => c.report = k.2 ∧ CommitRef p c.statements c.new k.1
  | _, _ => False

/-- The relation of the model and the specification -/
structure Refines (w : World α) (s : SWorld α) : Prop where
  handles : List.Forall₂ (fun (r : Revision) (h : List (SStatement α) × Report) => r.report = h.2 ∧ List.Forall₂ (Ref w.pipeline) r.statements h.1) w.pipeline.revisions s.handles
  commits : List.Forall₂ (OneCommit w.pipeline) w.commits s.commits

/-- `q` has more statements than `p`. -/
structure Extends (p q : Pipeline α) : Prop where
  arena : q.arena = p.arena
  statements : ∀ (m : Nat) (s : Statement α), p.statements[m]? = some s → q.statements[m]? = some s

theorem Extends.refl (p : Pipeline α) : Extends p p := ⟨rfl, fun _ _ h => h⟩

theorem Extends.trans {p q r : Pipeline α} (h : Extends p q) (h' : Extends q r) : Extends p r :=
  ⟨h'.arena.trans h.arena, fun m s hm => h'.statements m s (h.statements m s hm)⟩

theorem Desc.mono {p q : Pipeline α} (h : Extends p q) {m : Nat} {d : SStatement α} (hd : Desc p m d) : Desc q m d := by
  induction hd with
  | base h1 h2 h3 => exact .base (h.statements _ _ h1) (by rw [h.arena]; exact h2) h3
  | made h1 h2 h3 h4 _ h6 ih => exact .made (h.statements _ _ h1) (by rw [h.arena]; exact h2) (by rw [h.arena]; exact h3) h4 ih h6

theorem Ref.mono {p q : Pipeline α} (h : Extends p q) {i : ComponentId} {d : SStatement α} (hd : Ref p i d) : Ref q i d := by
  obtain ⟨m, h1, h2⟩ := hd
  exact ⟨m, by rw [h.arena]; exact h1, h2.mono h⟩

theorem NewRef.mono {p q : Pipeline α} (h : Extends p q) {s : Statement α} {d : SStatement α} (hd : NewRef p s d) : NewRef q s d := by
  obtain ⟨h1, h2, h3⟩ := hd
  refine ⟨h1, h2, h3.imp id ?_⟩
  rintro ⟨j, d', h4, h5, h6, h7⟩
  exact ⟨j, d', by rw [h.arena]; exact h4, h5.mono h, h6, h7⟩

theorem CommitRef.mono {p q : Pipeline α} (h : Extends p q) {ss : List Status} {new : List (Statement α)} {l : List (SStatement α)} (hc : CommitRef p ss new l) :
    CommitRef q ss new l := by
  induction hc with
  | nil => exact .nil
  | existing h1 _ ih => exact .existing (h1.mono h) ih
  | fresh h1 _ ih => exact .fresh (h1.mono h) ih

theorem OneCommit.mono {p q : Pipeline α} (h : Extends p q) {c : Option (Commit α)} {k : Option (List (SStatement α) × Report)} (hc : OneCommit p c k) : OneCommit q c k := by
  match c, k, hc with
  | none, none, _ => trivial
  | some _, some _, hc => exact ⟨hc.1, hc.2.mono h⟩

/-! ## Statements that exist -/

theorem Desc.statement {p : Pipeline α} {m : Nat} {d : SStatement α} (h : Desc p m d) :
    ∃ (s : Statement α) (t : Tree α), p.statements[m]? = some s ∧ s.kind = d.kind ∧ s.tree = t.register (newStatementId ⟨p.arena, m⟩) ∧ t.shape = d.shape := by
  cases h with
  | base h1 h2 h3 => exact ⟨_, _, h1, rfl, h2, rfl⟩
  | made h1 h2 h3 h4 h5 h6 => exact ⟨_, _, h1, rfl, h2, rfl⟩

theorem register_id (t : Tree α) (i : ComponentId) : (t.register i).id = i := by
  cases t
  rfl

theorem statement_new (p : Pipeline α) (m : Nat) : p.statement (newStatementId ⟨p.arena, m⟩) = p.statements[m]? := by
  simp [Pipeline.statement, newStatementId]

theorem Ref.statement {p : Pipeline α} {i : ComponentId} {d : SStatement α} (h : Ref p i d) :
    ∃ s, p.statement i = some s ∧ s.kind = d.kind ∧ s.id = i ∧ s.tree.shape = d.shape := by
  obtain ⟨m, rfl, h⟩ := h
  obtain ⟨s, t, h1, h2, h3, h4⟩ := h.statement
  refine ⟨s, by rw [statement_new, h1], h2, ?_, ?_⟩
  · rw [Statement.id, h3, register_id]
  · rw [h3, shape_register, h4]

/-! ## Submitting -/

theorem newStatement_extends (p : Pipeline α) (s : Statement α) : Extends p (p.newStatement s).1 := by
  refine ⟨rfl, fun m x h => ?_⟩
  show (p.statements ++ _)[m]? = _
  rw [List.getElem?_append_left ((List.getElem?_eq_some_iff.1 h).1), h]

theorem newStatement_ref (p : Pipeline α) {s : Statement α} {d : SStatement α} (h : NewRef p s d) : Ref (p.newStatement s).1 (p.newStatement s).2 d := by
  have hn : (p.newStatement s).1.statements[p.statements.length]? = some (s.register (newStatementId ⟨p.arena, p.statements.length⟩)) := by
    show (p.statements ++ [_])[p.statements.length]? = _
    rw [List.getElem?_append_right (Nat.le_refl _), Nat.sub_self]
    rfl
  refine ⟨p.statements.length, rfl, ?_⟩
  obtain ⟨h1, h2, h3⟩ := h
  obtain ⟨dk, ds, dr⟩ := d
  simp only at h1 h2 h3
  subst h1 h2
  rcases h3 with ⟨h3, rfl⟩ | ⟨j, d', h3, h4, h5, rfl⟩
  · exact .base (s := s.register _) (t := s.tree) hn rfl h3
  · refine .made (s := s.register _) (t := s.tree) hn rfl h3 ?_ (h4.mono (newStatement_extends p s)) h5
    obtain ⟨x, t, h6, -⟩ := h4.statement
    exact (List.getElem?_eq_some_iff.1 h6).1

theorem submitLoop_spec {p : Pipeline α} {ss : List Status} {new : List (Statement α)} {l : List (SStatement α)} (h : CommitRef p ss new l) :
    Extends p (submitLoop ss new p).1 ∧ (submitLoop ss new p).1.revisions = p.revisions ∧ List.Forall₂ (Ref (submitLoop ss new p).1) (submitLoop ss new p).2 l := by
  induction ss generalizing p new l with
  | nil =>
    cases h
    exact ⟨.refl p, rfl, .nil⟩
  | cons x ss ih =>
    cases h with
    | existing h hs =>
      obtain ⟨h1, h2, h3⟩ := ih hs
      exact ⟨h1, h2, .cons (h.mono h1) h3⟩
    | @fresh s d _ new _ h hs =>
      obtain ⟨h1, h2, h3⟩ := ih (hs.mono (newStatement_extends p s))
      exact ⟨(newStatement_extends p s).trans h1, h2, .cons ((newStatement_ref p h).mono h1) h3⟩

/-! ## Refinement -/

theorem forall₂_set {β γ : Type} {R : β → γ → Prop} {l : List β} {l' : List γ} (h : List.Forall₂ R l l') (n : Nat) {b : β} {c : γ} (hr : R b c) :
    List.Forall₂ R (l.set n b) (l'.set n c) := by
  induction h generalizing n with
  | nil => exact .nil
  | cons h1 h2 ih =>
    cases n with
    | zero => exact .cons hr h2
    | succ n => exact .cons h1 (ih n)

theorem forall₂_append {β γ : Type} {R : β → γ → Prop} {l m : List β} {l' m' : List γ} (h : List.Forall₂ R l l') (h' : List.Forall₂ R m m') :
    List.Forall₂ R (l ++ m) (l' ++ m') := by
  induction h with
  | nil => exact h'
  | cons h1 _ ih => exact .cons h1 ih

theorem forall₂_imp {β γ : Type} {R S : β → γ → Prop} {l : List β} {l' : List γ} (h : List.Forall₂ R l l') (hi : ∀ b c, R b c → S b c) : List.Forall₂ S l l' := by
  induction h with
  | nil => exact .nil
  | cons h1 _ ih => exact .cons (hi _ _ h1) ih

theorem forall₂_get {β γ : Type} {R : β → γ → Prop} {l : List β} {l' : List γ} (h : List.Forall₂ R l l') (n : Nat) :
    (l[n]? = none ∧ l'[n]? = none) ∨ ∃ b c, l[n]? = some b ∧ l'[n]? = some c ∧ R b c := by
  induction h generalizing n with
  | nil => exact .inl ⟨rfl, rfl⟩
  | cons h1 h2 ih =>
    cases n with
    | zero => exact .inr ⟨_, _, rfl, rfl, h1⟩
    | succ n => exact ih n

variable {w : World α} {s : SWorld α}

theorem Refines.at (h : Refines w s) (i j : Nat) : (w.pipeline.statementAt i j = none ∧ s.at i j = none) ∨
    ∃ x d, w.pipeline.statementAt i j = some x ∧ s.at i j = some d ∧ Ref w.pipeline x.id d ∧ x.kind = d.kind ∧ x.tree.shape = d.shape := by
  unfold Pipeline.statementAt Pipeline.handleStatements SWorld.at
  rcases forall₂_get h.handles i with ⟨h1, h2⟩ | ⟨r, l, h1, h2, -, h3⟩
  · exact .inl (by simp [h1, h2])
  · rw [h1, h2]
    rcases forall₂_get h3 j with ⟨h4, h5⟩ | ⟨x, d, h4, h5, h6⟩
    · exact .inl (by simp [h4, h5])
    · obtain ⟨y, h7, h8, h9, h10⟩ := h6.statement
      exact .inr ⟨y, d, by simp [h4, h7], by simp [h5], by rw [h9]; exact h6, h8, h10⟩

theorem Refines.modify (h : Refines w s) (c : Nat) {f : Commit α → Commit α} {g : List (SStatement α) × Report → List (SStatement α) × Report}
    (hfg : ∀ k l, OneCommit w.pipeline (some k) (some l) → OneCommit w.pipeline (some (f k)) (some (g l))) : Refines (w.modify c f) (s.modify c g) := by
  unfold World.modify SWorld.modify
  rcases forall₂_get h.commits c with ⟨h1, h2⟩ | ⟨k, l, h1, h2, h3⟩
  · rw [h1, h2]
    exact h
  · rw [h1, h2]
    match k, l, h3 with
    | none, none, _ => exact h
    | some k, some l, h3 => exact ⟨h.handles, forall₂_set h.commits c (hfg k l h3)⟩

theorem CommitRef.snoc_existing {p : Pipeline α} {ss : List Status} {new : List (Statement α)} {l : List (SStatement α)} {i : ComponentId} {d : SStatement α}
    (h : CommitRef p ss new l) (hi : Ref p i d) : CommitRef p (ss ++ [.existing i]) new (l ++ [d]) := by
  induction h with
  | nil => exact .existing hi .nil
  | existing h1 _ ih => exact .existing h1 ih
  | fresh h1 _ ih => exact .fresh h1 ih

theorem CommitRef.snoc_fresh {p : Pipeline α} {ss : List Status} {new : List (Statement α)} {l : List (SStatement α)} {x : Statement α} {d : SStatement α}
    (h : CommitRef p ss new l) (hi : NewRef p x d) : CommitRef p (ss ++ [.fresh]) (new ++ [x]) (l ++ [d]) := by
  induction h with
  | nil => exact .fresh hi .nil
  | existing h1 _ ih => exact .existing h1 ih
  | fresh h1 _ ih => exact .fresh h1 ih

theorem commitRef_full {p : Pipeline α} {l : List ComponentId} {l' : List (SStatement α)} (h : List.Forall₂ (Ref p) l l') : CommitRef p (l.map .existing) [] l' := by
  induction h with
  | nil => exact .nil
  | cons h1 _ ih => exact .existing h1 ih

theorem Refines.step (h : Refines w s) (op : Op α) : Refines (w.step op) (s.step op) := by
  cases op with
  | fork i =>
    unfold World.step SWorld.step
    rcases forall₂_get h.handles i with ⟨h1, h2⟩ | ⟨r, l, h1, h2, h3, h4⟩
    · simp only [h1, h2]
      exact h
    · simp only [h1, h2]
      exact ⟨h.handles, forall₂_append h.commits (.cons ⟨h3, .nil⟩ .nil)⟩
  | forkFull i =>
    unfold World.step SWorld.step
    rcases forall₂_get h.handles i with ⟨h1, h2⟩ | ⟨r, l, h1, h2, h3, h4⟩
    · simp only [h1, h2]
      exact h
    · simp only [h1, h2]
      exact ⟨h.handles, forall₂_append h.commits (.cons ⟨h3, commitRef_full h4⟩ .nil)⟩
  | keep c i j =>
    unfold World.step SWorld.step
    rcases h.at i j with ⟨h1, h2⟩ | ⟨x, d, h1, h2, h3, -, -⟩
    · simp only [h1, h2]
      exact h
    · simp only [h1, h2]
      exact h.modify c fun k l hkl => ⟨hkl.1, hkl.2.snoc_existing h3⟩
  | add c kind t => exact h.modify c fun k l hkl => ⟨hkl.1, hkl.2.snoc_fresh ⟨rfl, rfl, .inl ⟨rfl, rfl⟩⟩⟩
  | addFrom c i j t =>
    unfold World.step SWorld.step
    rcases h.at i j with ⟨h1, h2⟩ | ⟨x, d, h1, h2, ⟨m, h3, h5⟩, h4, -⟩
    · simp only [h1, h2]
      exact h
    · simp only [h1, h2]
      exact h.modify c fun k l hkl => ⟨hkl.1, hkl.2.snoc_fresh ⟨h4.symm, rfl, .inr ⟨m, d, by rw [h3], h5, h4.symm, rfl⟩⟩⟩
  | error c e => exact h.modify c fun k l hkl => ⟨by rw [show k.report = l.2 from hkl.1], hkl.2⟩
  | warn c e => exact h.modify c fun k l hkl => ⟨by rw [show k.report = l.2 from hkl.1], hkl.2⟩
  | submit c =>
    unfold World.step SWorld.step
    rcases forall₂_get h.commits c with ⟨h1, h2⟩ | ⟨k, l, h1, h2, h3⟩
    · simp only [h1, h2]
      exact h
    · match k, l, h3 with
      | none, none, _ => simp only [h1, h2]; exact h
      | some k, some l, h3 =>
        simp only [h1, h2, Commit.submit, h3.1]
        by_cases he : l.2.errors = []
        · obtain ⟨h4, h5, h6⟩ := submitLoop_spec h3.2
          simp only [he, ne_eq, not_true_eq_false, if_false, if_true]
          have ext : ∀ (rs : List Revision), Extends w.pipeline { (submitLoop k.statements k.new w.pipeline).1 with revisions := rs } := fun _ => ⟨h4.arena, h4.statements⟩
          have ext' : ∀ (rs : List Revision), Extends (submitLoop k.statements k.new w.pipeline).1 { (submitLoop k.statements k.new w.pipeline).1 with revisions := rs } :=
            fun _ => ⟨rfl, fun _ _ h => h⟩
          refine ⟨?_, forall₂_set (forall₂_imp h.commits fun _ _ hc => hc.mono (ext _)) c trivial⟩
          show List.Forall₂ _ ((submitLoop k.statements k.new w.pipeline).1.revisions ++ [_]) _
          rw [h5]
          refine forall₂_append (forall₂_imp h.handles fun _ _ hc => ⟨hc.1, forall₂_imp hc.2 fun _ _ hr => hr.mono (ext _)⟩) (.cons ⟨rfl, forall₂_imp h6 fun _ _ hr => hr.mono (ext' _)⟩ .nil)
        · simp only [he, ne_eq, not_false_eq_true, if_true, if_false]
          exact ⟨h.handles, forall₂_set h.commits c trivial⟩

/-- **For all histories of operations, the model and the specification are in the same state.** -/
theorem run_refines (arena : Nat) (ops : List (Op α)) : Refines ((World.new arena).run ops) (SWorld.new.run ops) := by
  have h0 : Refines (World.new (α := α) arena) SWorld.new := ⟨.nil, .cons ⟨rfl, .nil⟩ .nil⟩
  unfold World.run SWorld.run
  generalize World.new (α := α) arena = w at h0
  generalize SWorld.new (α := α) = s at h0
  induction ops generalizing w s with
  | nil => exact h0
  | cons op ops ih => exact ih _ _ (h0.step op)

/-! ## Consequences -/

/-- What a statement says -/
def Statement.content (s : Statement α) : Kind × Shape α := (s.kind, s.tree.shape)

/-- **The programs of all handles are those of the specification; reading them does not panic.** -/
theorem handle_statements (arena : Nat) (ops : List (Op α)) (h : Nat) :
    (((World.new arena).run ops).pipeline.handleStatements h).map (fun l => l.map (Option.map Statement.content)) =
      ((SWorld.new.run ops).handles[h]?).map fun l => l.1.map fun d => some (d.kind, d.shape) := by
  have hr := run_refines arena ops
  unfold Pipeline.handleStatements
  rcases forall₂_get hr.handles h with ⟨h1, h2⟩ | ⟨r, l, h1, h2, -, h3⟩
  · rw [h1, h2]; rfl
  · rw [h1, h2]
    simp only [Option.map_some, List.map_map, Option.some.injEq]
    clear h1 h2
    obtain ⟨l, rep⟩ := l
    simp only at h3 ⊢
    generalize r.statements = ids at h3
    induction h3 with
    | nil => rfl
    | cons h4 _ ih =>
      rw [List.map_cons, List.map_cons, ih]
      obtain ⟨s, h5, h6, -, h7⟩ := h4.statement
      simp only [Function.comp_apply, h5, Option.map_some, Statement.content, h6, h7]

theorem SWorld.step_handles (s : SWorld α) (op : Op α) {h : Nat} {l : List (SStatement α) × Report} (hl : s.handles[h]? = some l) : (s.step op).handles[h]? = some l := by
  have hm : ∀ c f, (s.modify c f).handles = s.handles := by
    intro c f
    unfold SWorld.modify
    split <;> rfl
  cases op with
  | fork i => simp only [SWorld.step]; split <;> exact hl
  | forkFull i => simp only [SWorld.step]; split <;> exact hl
  | keep c i j => simp only [SWorld.step]; split <;> simp only [hm, hl]
  | add c kind t => simp only [SWorld.step, hm, hl]
  | addFrom c i j t => simp only [SWorld.step]; split <;> simp only [hm, hl]
  | error c e => simp only [SWorld.step, hm, hl]
  | warn c e => simp only [SWorld.step, hm, hl]
  | submit c =>
    simp only [SWorld.step]
    split
    · simp only
      split
      · rw [List.getElem?_append_left (List.getElem?_eq_some_iff.1 hl).1, hl]
      · exact hl
    · exact hl

/-- **The program of a handle never changes**, whatever is done afterwards. -/
theorem handle_unchanged (arena : Nat) (ops more : List (Op α)) (h : Nat) (hh : (((World.new arena).run ops).pipeline.handleStatements h).isSome) :
    (((World.new arena).run (ops ++ more)).pipeline.handleStatements h).map (fun l => l.map (Option.map Statement.content)) =
      (((World.new arena).run ops).pipeline.handleStatements h).map fun l => l.map (Option.map Statement.content) := by
  rw [handle_statements, handle_statements]
  have h1 : ((SWorld.new (α := α).run ops).handles[h]?).isSome := by
    have := congrArg Option.isSome (handle_statements (α := α) arena ops h)
    simpa [hh] using this.symm
  obtain ⟨l, hl⟩ := Option.isSome_iff_exists.1 h1
  have h2 : (SWorld.new (α := α).run (ops ++ more)).handles[h]? = some l := by
    unfold SWorld.run at hl ⊢
    rw [List.foldl_append]
    generalize List.foldl SWorld.step SWorld.new ops = s at hl
    induction more generalizing s with
    | nil => exact hl
    | cons op more ih => exact ih _ (s.step_handles op hl)
  rw [hl, h2]

/-! ## Origins -/

theorem ruleById_new (p : Pipeline α) {m : Nat} {s : Statement α} (h : p.statements[m]? = some s) (hk : s.kind = .rule) : p.ruleById (newStatementId ⟨p.arena, m⟩) = some (some s) := by
  simp [Pipeline.ruleById, newStatementId, h, hk]

/-- The origin of a rule is found, and says what the specification says.  As many steps as there are statements are enough. -/
theorem Desc.resolve {p : Pipeline α} {m : Nat} {d : SStatement α} (h : Desc p m d) (hk : d.kind = .rule) {n : Nat} (hn : m < n) :
    ∃ i r, p.resolve n (newStatementId ⟨p.arena, m⟩) = some i ∧ p.ruleById i = some (some r) ∧ r.tree.shape = d.root ∧ r.origin = none := by
  induction h generalizing n with
  | @base m t s h1 h2 h3 =>
    obtain ⟨n, rfl⟩ : ∃ k, n = k + 1 := ⟨n - 1, by omega⟩
    refine ⟨newStatementId ⟨p.arena, m⟩, s, ?_, ruleById_new p h1 hk, ?_, h3⟩
    · simp only [Pipeline.resolve, ruleById_new p h1 hk, h3]
    · rw [h2, shape_register]
  | @made m j t s d h1 h2 h3 h4 h5 h6 ih =>
    obtain ⟨n, rfl⟩ : ∃ k, n = k + 1 := ⟨n - 1, by omega⟩
    obtain ⟨i, r, h7, h8⟩ := ih (h6.trans hk) (n := n) (by omega)
    refine ⟨i, r, ?_, h8⟩
    simp only [Pipeline.resolve, ruleById_new p h1 hk, h3]
    exact h7

/-- **The rule that is displayed for a rule of a program is the one that it was made from**, and looking for it ends, for all histories. -/
theorem resolve_root (arena : Nat) (ops : List (Op α)) (h i : Nat) {x : Statement α} (hx : ((World.new arena).run ops).pipeline.statementAt h i = some x) (hk : x.kind = .rule) :
    ∃ d j r, (SWorld.new.run ops).at h i = some d ∧ ((World.new arena).run ops).pipeline.resolve ((World.new arena).run ops).pipeline.statements.length x.id = some j ∧
      ((World.new arena).run ops).pipeline.ruleById j = some (some r) ∧ r.tree.shape = d.root := by
  rcases (run_refines arena ops).at h i with ⟨h1, -⟩ | ⟨y, d, h1, h2, ⟨m, h3, h4⟩, h5, -⟩
  · rw [hx] at h1; cases h1
  · rw [hx] at h1
    cases h1
    obtain ⟨s, t, h6, -⟩ := h4.statement
    obtain ⟨j, r, h7, h8, h9, -⟩ := h4.resolve (h5.symm.trans hk) (List.getElem?_eq_some_iff.1 h6).1
    exact ⟨d, j, r, h2, by rw [h3]; exact h7, h8, h9⟩

/-- **Submitting a commit returns the handle of the program that was committed**, or nothing if there are errors, for all histories: no matter which
other commits exist or have been submitted, the program of the returned handle is what was added to this commit. -/
theorem submit_handle (arena : Nat) (ops : List (Op α)) (c : Nat) {k : Commit α} (hk : ((World.new arena).run ops).commits[c]? = some (some k)) :
    ∃ l : List (SStatement α) × Report, (SWorld.new.run ops).commits[c]? = some (some l) ∧
      (l.2.errors ≠ [] → (k.submit ((World.new arena).run ops).pipeline).2 = none) ∧
      (l.2.errors = [] → ∃ h, (k.submit ((World.new arena).run ops).pipeline).2 = some h ∧
        ((World.new arena).run ops).pipeline.handleStatements h = none ∧
        ((k.submit ((World.new arena).run ops).pipeline).1.handleStatements h).map (fun l => l.map (Option.map Statement.content)) =
          some (l.1.map fun d => some (d.kind, d.shape))) := by
  have hr := run_refines arena ops
  rcases forall₂_get hr.commits c with ⟨h1, -⟩ | ⟨k', l, h1, h2, h3⟩
  · rw [hk] at h1; cases h1
  · rw [hk] at h1
    cases h1
    match l, h3 with
    | some l, h3 =>
      refine ⟨l, h2, fun he => ?_, fun he => ?_⟩
      · simp only [Commit.submit, h3.1, he, ne_eq, not_false_eq_true, if_true]
      · have hlen := hr.handles.length_eq
        have hspec := handle_statements (α := α) arena (ops ++ [.submit c]) (SWorld.new.run ops).handles.length
        have hs : (SWorld.new (α := α).run (ops ++ [.submit c])).handles = (SWorld.new.run ops).handles ++ [l] := by
          simp only [SWorld.run, List.foldl_append, List.foldl_cons, List.foldl_nil]
          simp only [SWorld.run] at h2
          simp only [SWorld.step, h2, he, if_true]
        have hm : ((World.new (α := α) arena).run (ops ++ [.submit c])).pipeline = (k.submit ((World.new arena).run ops).pipeline).1 := by
          simp only [World.run, List.foldl_append, List.foldl_cons, List.foldl_nil]
          simp only [World.run] at hk
          simp only [World.step, hk]
        rw [hs, hm, List.getElem?_append_right (Nat.le_refl _), Nat.sub_self] at hspec
        refine ⟨(SWorld.new.run ops).handles.length, ?_, ?_, hspec⟩
        · obtain ⟨h4, h5, h6⟩ := submitLoop_spec h3.2
          simp only [Commit.submit, h3.1, he, ne_eq, not_true_eq_false, if_false, h5, hlen]
        · unfold Pipeline.handleStatements
          rw [List.getElem?_eq_none (by omega)]
          rfl

/-- **Looking for a rule by the id of a statement of a program finds this statement if it is a rule, and nothing otherwise**, for all histories. -/
theorem ruleById_statement (arena : Nat) (ops : List (Op α)) (h i : Nat) {x : Statement α} (hx : ((World.new arena).run ops).pipeline.statementAt h i = some x) :
    ((World.new arena).run ops).pipeline.ruleById x.id = some (if x.kind = .rule then some x else none) := by
  rcases (run_refines arena ops).at h i with ⟨h1, -⟩ | ⟨y, d, h1, h2, ⟨m, h3, h4⟩, h5, -⟩
  · rw [hx] at h1; cases h1
  · rw [hx] at h1
    cases h1
    obtain ⟨s, t, h6, -, h7, -⟩ := h4.statement
    have h8 : x = s := by
      unfold Pipeline.statementAt Pipeline.handleStatements at hx
      rcases forall₂_get (run_refines arena ops).handles h with ⟨h8, -⟩ | ⟨r, l, h8, -, -, h9⟩
      · rw [h8] at hx; cases hx
      · rw [h8] at hx
        rcases forall₂_get h9 i with ⟨h10, -⟩ | ⟨z, e, h10, -, ⟨n, rfl, h11⟩⟩
        · simp [h10] at hx
        · simp only [Option.map_some, Option.bind_some, List.getElem?_map, h10, id_eq, statement_new] at hx
          obtain ⟨s', t', h12, -, h13, -⟩ := h11.statement
          rw [h12] at hx
          cases hx
          rw [Statement.id, h13, register_id] at h3
          have hmn : n = m := by simpa [newStatementId] using h3
          subst hmn
          rw [h12] at h6
          cases h6
          rfl
    subst h8
    simp only [Pipeline.ruleById, h3, newStatementId, h6, if_true, ne_eq, not_true_eq_false, if_false]

/-- A rule that is found by an id is a rule, and the id is that of a statement. -/
theorem ruleById_rule (p : Pipeline α) (i : ComponentId) {r : Statement α} (h : p.ruleById i = some (some r)) : r.kind = .rule ∧ i.component = 0 := by
  unfold Pipeline.ruleById at h
  split at h
  · split at h
    · cases h
    · split at h
      · cases h
      · split at h
        · cases h
        · split at h
          · cases h
            exact ⟨‹_›, ‹_›⟩
          · cases h
  · cases h

/-! ## Components -/

/-- The component that is reached by always taking the last child -/
def rightmost : Nat → Tree α → Option (Tree α)
  | 0, t => some t
  | n + 1, .node _ _ cs => cs.getLast?.bind (rightmost n)

mutual
/-- `c` is a component of `t` at depth `n`. -/
inductive At : Nat → Tree α → Tree α → Prop where
  | here {t : Tree α} : At 0 t t
  | child {n : Nat} {a : α} {i : ComponentId} {cs : List (Tree α)} {c t : Tree α} (hc : c ∈ cs) (h : At n c t) : At (n + 1) (.node a i cs) t
end

theorem mem_registers {cs : List (Tree α)} {i : ComponentId} {c : Tree α} (h : c ∈ registers cs i) : ∃ c' ∈ cs, c = c'.register i.increment := by
  induction cs with
  | nil => cases h
  | cons d cs ih =>
    rcases List.mem_cons.1 (show c ∈ d.register i.increment :: registers cs i from h) with h | h
    · exact ⟨d, List.mem_cons_self, h⟩
    · obtain ⟨c', h1, h2⟩ := ih h
      exact ⟨c', List.mem_cons_of_mem _ h1, h2⟩

theorem lt_self (i : ComponentId) : i.lt i = false := by
  obtain ⟨s, c⟩ := i
  cases s <;> simp [ComponentId.lt, optLt, Id.lt]

theorem findIn_last {cs : List (Tree α)} {i : ComponentId} (h : ∀ c ∈ cs, i.lt c.id = false) :
    findIn cs i = cs.getLast?.bind fun c => if c.id = i then some c else if c.id.lt i then c.find i else none := by
  match cs with
  | [] => rfl
  | [c] => rw [findIn]; rfl
  | c :: d :: cs =>
    rw [findIn, h d (by simp), List.getLast?_cons_cons]
    simp only [Bool.false_eq_true, if_false]
    exact findIn_last fun x hx => h x (List.mem_cons_of_mem _ hx)

/-- All components at the same depth have the same id. -/
theorem At.id {n : Nat} {t : Tree α} {j : Id} {k : Nat} {c : Tree α} (h : At n (t.register ⟨some j, k⟩) c) : c.id = ⟨some j, k + n⟩ := by
  induction n generalizing t k with
  | zero => cases h; exact register_id _ _
  | succ n ih =>
    obtain ⟨a, i, cs⟩ := t
    rw [Tree.register] at h
    cases h with
    | child hc h =>
      obtain ⟨c', -, rfl⟩ := mem_registers hc
      have : (⟨some j, k⟩ : ComponentId).increment = ⟨some j, k + 1⟩ := by simp [ComponentId.increment, unassigned]
      rw [this] at h
      rw [ih h]
      congr 1
      omega

theorem find_rightmost (n : Nat) (t : Tree α) (j : Id) (k : Nat) : (t.register ⟨some j, k⟩).find ⟨some j, k + (n + 1)⟩ = rightmost (n + 1) (t.register ⟨some j, k⟩) := by
  induction n generalizing t k with
  | zero =>
    obtain ⟨a, i, cs⟩ := t
    have hid : ∀ c ∈ registers cs ⟨some j, k⟩, c.id = ⟨some j, k + 1⟩ := by
      intro c hc
      obtain ⟨c', -, rfl⟩ := mem_registers hc
      rw [register_id]
      simp [ComponentId.increment, unassigned]
    rw [Tree.register, Tree.find, findIn_last fun c hc => by rw [hid c hc]; exact lt_self _, rightmost]
    cases hl : (registers cs ⟨some j, k⟩).getLast? with
    | none => rfl
    | some c =>
      have hc := hid c (List.mem_of_getLast? hl)
      simp only [Option.bind_some, Nat.zero_add, hc, if_true, rightmost]
  | succ n ih =>
    obtain ⟨a, i, cs⟩ := t
    have hinc : (⟨some j, k⟩ : ComponentId).increment = ⟨some j, k + 1⟩ := by simp [ComponentId.increment, unassigned]
    have hid : ∀ c ∈ registers cs ⟨some j, k⟩, c.id = ⟨some j, k + 1⟩ := by
      intro c hc
      obtain ⟨c', -, rfl⟩ := mem_registers hc
      rw [register_id, hinc]
    rw [Tree.register, Tree.find, findIn_last fun c hc => by rw [hid c hc]; simp [ComponentId.lt, optLt, Id.lt], rightmost]
    cases hl : (registers cs ⟨some j, k⟩).getLast? with
    | none => rfl
    | some c =>
      have hm := List.mem_of_getLast? hl
      have hc := hid c hm
      obtain ⟨c', -, rfl⟩ := mem_registers hm
      have h1 : (⟨some j, k + 1⟩ : ComponentId) ≠ ⟨some j, k + (n + 1 + 1)⟩ := by
        intro h
        have := congrArg ComponentId.component h
        simp at this
      have h2 : (⟨some j, k + 1⟩ : ComponentId).lt ⟨some j, k + (n + 1 + 1)⟩ = true := by
        simp [ComponentId.lt, optLt, Id.lt]
      simp only [Option.bind_some, hc, h1, h2, if_false, if_true]
      rw [hinc, show k + (n + 1 + 1) = k + 1 + (n + 1) by omega]
      exact ih c' (k + 1)

/-- **Looking for the component with an id gives the last component of the last component … of the statement**, for all histories. -/
theorem find_component_partial {p : Pipeline α} {m : Nat} {d : SStatement α} (h : Desc p m d) (n : Nat) :
    ∃ s, p.statements[m]? = some s ∧ p.findComponent ⟨some ⟨p.arena, m⟩, n⟩ = some (rightmost n s.tree) := by
  obtain ⟨s, t, h1, -, h2, -⟩ := h.statement
  refine ⟨s, h1, ?_⟩
  simp only [Pipeline.findComponent, h1, ne_eq, not_true_eq_false, if_false]
  cases n with
  | zero => rfl
  | succ n =>
    have := find_rightmost n t ⟨p.arena, m⟩ 0
    rw [Nat.zero_add] at this
    simp only [Nat.add_eq_zero_iff, Nat.one_ne_zero, and_false, if_false]
    rw [h2]
    exact congrArg some this

theorem rightmost_at (n : Nat) (t c : Tree α) (h : rightmost n t = some c) : At n t c := by
  induction n generalizing t with
  | zero => cases h; exact .here
  | succ n ih =>
    obtain ⟨a, i, cs⟩ := t
    rw [rightmost] at h
    obtain ⟨d, h1, h2⟩ := Option.bind_eq_some_iff.1 h
    exact .child (List.mem_of_getLast? h1) (ih d h2)

/-! ## `Program` -/

section program
variable {σ : Type}

/-- The rules of a materialized program are the rules among its statements, in the same order. -/
theorem materialize_rules (kind : σ → Kind) (ss : List σ) :
    (materialize kind ss).statements = ss ∧ (materialize kind ss).rulesOf kind = (ss.filter fun s => kind s = .rule).map some := by
  induction ss using List.reverseRecOn with
  | nil => exact ⟨rfl, rfl⟩
  | append_singleton ss s ih =>
    obtain ⟨h1, h2⟩ := ih
    have hf : materialize kind (ss ++ [s]) = (materialize kind ss).add kind s := by
      unfold materialize
      rw [List.foldl_append]
      rfl
    have hlt : ∀ i ∈ (materialize kind ss).rules, i < ss.length := by
      intro i hi
      by_contra hge
      have h3 : none ∈ (materialize kind ss).rulesOf kind := by
        refine List.mem_map.2 ⟨i, hi, ?_⟩
        rw [h1, List.getElem?_eq_none (by omega)]
        rfl
      rw [h2] at h3
      simp at h3
    have hold : ∀ x, (materialize kind ss).rules.map (fun i => ((ss ++ [x])[i]?).bind fun s => if kind s = .rule then some s else none) = (materialize kind ss).rulesOf kind := by
      intro x
      unfold Program.rulesOf
      rw [h1]
      refine List.map_congr_left fun i hi => ?_
      rw [List.getElem?_append_left (hlt i hi)]
    rw [hf]
    unfold Program.add
    refine ⟨by simp only [h1], ?_⟩
    rw [List.filter_append]
    by_cases hk : kind s = .rule
    · have h3 := hold s
      simp only [Program.rulesOf, hk, if_true, h1, List.map_append, List.map_cons, List.map_nil] at h3 ⊢
      rw [h3, List.getElem?_append_right (Nat.le_refl _), Nat.sub_self, ← List.map_append]
      rw [List.map_append, ← h2, Program.rulesOf, h1]
      simp [hk]
    · have h3 := hold s
      simp only [Program.rulesOf, hk, if_false, h1] at h3 ⊢
      rw [h3, show (List.filter (fun s => decide (kind s = Kind.rule)) [s]) = [] by simp [hk], List.append_nil, ← h2, Program.rulesOf, h1]

end program
end Verif.Rev
