import Verif.Incremental

/-!
# C59: import clauses instead of imports
-/

set_option linter.unusedSimpArgs false
set_option linter.unusedSectionVars false

namespace Verif.Inc
open Verif
variable {α : Type}

/-! ## Names -/

theorem tagName_code (s : String) : tagName (nameCode s) = s := by
  unfold tagName nameCode
  rw [Encodable.encodek]
  simp [List.map_map, Function.comp_def]

theorem underscore_split {n n' d d' : List Char} (hd : '_' ∉ d) (hd' : '_' ∉ d') (h : n ++ '_' :: d = n' ++ '_' :: d') : n = n' ∧ d = d' := by
  rcases List.append_eq_append_iff.1 h with ⟨a, h1, h2⟩ | ⟨a, h1, h2⟩
  · cases a with
    | nil => simp at h1 h2; exact ⟨h1.symm, h2⟩
    | cons c a =>
      exfalso
      simp only [List.cons_append, List.cons.injEq] at h2
      exact hd (by rw [h2.2]; simp)
  · cases a with
    | nil => simp at h1 h2; exact ⟨h1, h2.symm⟩
    | cons c a =>
      exfalso
      simp only [List.cons_append, List.cons.injEq] at h2
      exact hd' (by rw [h2.2]; simp)

theorem underscore_digits (k : Nat) : '_' ∉ (toString k).toList := by
  intro h
  have h4 : '_' ∈ (Nat.repr k).toList := h
  rw [Nat.toList_repr] at h4
  have := Nat.isDigit_of_mem_toDigits (by omega) (by omega) h4
  exact absurd this (by decide)

theorem numbered_inj {pre n n' : String} {i j : Nat} (h : pre ++ n ++ "_" ++ toString i = pre ++ n' ++ "_" ++ toString j) : n = n' ∧ i = j := by
  have h2 := congrArg String.toList h
  simp only [String.toList_append, List.append_assoc, List.append_cancel_left_eq] at h2
  have h3 : n.toList ++ '_' :: (toString i).toList = n'.toList ++ '_' :: (toString j).toList := by simpa using h2
  obtain ⟨h4, h5⟩ := underscore_split (underscore_digits i) (underscore_digits j) h3
  exact ⟨String.toList_inj.1 h4, repr_inj (String.toList_inj.1 h5)⟩

/-- New variables are different for different predicates or positions. -/
theorem importVar_inj {s t : String} {i j : Nat} (h : importVar (nameCode s) i = importVar (nameCode t) j) : s = t ∧ i = j := by
  have := numbered_inj (named_inj h)
  rwa [tagName_code, tagName_code] at this

/-- Different import clauses have different predicates. -/
theorem privTag_inj {p q : Tag} {i j : Nat} (h : privTag p i = privTag q j) : i = j := (numbered_inj (nameCode_inj h)).2

theorem anonVar_not_named (s : String) : anonVar ≠ .named s := by
  intro h
  have h1 := Encodable.encode_injective (Variable.universal.inj h)
  cases hs : s.toList with
  | nil => rw [hs] at h1; simp at h1
  | cons c l =>
    rw [hs] at h1
    simp only [List.map_cons, List.cons.injEq] at h1
    have h2 : c.toNat.isValidChar := c.valid
    unfold Nat.isValidChar at h2
    omega

theorem anonVar_importVar (p : Tag) (i : Nat) : anonVar ≠ importVar p i := anonVar_not_named _

/-- The variables that a user can write, and those of `TransformationNormalize` -/
theorem ordinary_named {s : String} (h : ¬ "_VAR_IMPORT_".toList <+: s.toList) : Ordinary (.named s) :=
  ⟨fun h' => anonVar_not_named s h'.symm, fun p i h' => h (by
    rw [named_inj h']
    simp only [String.toList_append, List.append_assoc]
    exact List.prefix_append _ _)⟩

/-! ## The new rule -/

section rule
variable {inc : List (Directive α)} {derived : List Tag}

theorem find_inc {p : Tag} {d : Directive α} (h : inc.find? (fun d => decide (d.pred = p)) = some d) : d ∈ inc ∧ d.pred = p :=
  ⟨List.mem_of_find?_eq_some h, by simpa using List.find?_some h⟩

theorem isInc_iff {p : Tag} : isInc inc p = true ↔ ∃ d ∈ inc, d.pred = p := by simp [isInc]

theorem find_none {p : Tag} (h : inc.find? (fun d => decide (d.pred = p)) = none) : isInc inc p = false := by
  rw [Bool.eq_false_iff]
  intro hc
  obtain ⟨d, h1, h2⟩ := isInc_iff.1 hc
  have := List.find?_eq_none.1 h d h1
  simp [h2] at this

theorem find_some_isInc {p : Tag} {d : Directive α} (h : inc.find? (fun d => decide (d.pred = p)) = some d) : isInc inc p = true :=
  isInc_iff.2 ⟨d, (find_inc h).1, (find_inc h).2⟩

/-- The atom of a clause is in the body: the sign, and the atom -/
def Lit (ls : List (LLit α)) (s : Bool) (a : SAtom α) : Prop := if s then .positive a ∈ ls else .negative a ∈ ls

/-- Clauses stem from atoms. -/
theorem clause_atom (ls : List (LLit α)) (id : Nat) {c : Clause α} (h : c ∈ (incBody inc derived ls id).clauses) :
    ∃ a d, Lit ls c.positive a ∧ d ∈ inc ∧ d.pred = a.pred ∧ c.origin = a.pred ∧ c.content = d.content ∧ c.vars = clauseVars a.pred a.terms 0 ∧
      inc.find? (fun d => decide (d.pred = a.pred)) = some d := by
  induction ls generalizing id with
  | nil => simp [incBody] at h
  | cons l ls ih =>
    have mono : ∀ (id : Nat), c ∈ (incBody inc derived ls id).clauses → ∃ a d, Lit (l :: ls) c.positive a ∧ d ∈ inc ∧ d.pred = a.pred ∧
        c.origin = a.pred ∧ c.content = d.content ∧ c.vars = clauseVars a.pred a.terms 0 ∧ inc.find? (fun d => decide (d.pred = a.pred)) = some d := by
      intro id h
      obtain ⟨a, d, h1, h2⟩ := ih id h
      refine ⟨a, d, ?_, h2⟩
      unfold Lit at h1 ⊢
      split <;> simp_all
    have new : ∀ (s : Bool) (a : SAtom α) (d : Directive α), inc.find? (fun d => decide (d.pred = a.pred)) = some d →
        c = (clauseFor derived d s a id).1 → Lit (l :: ls) s a → ∃ a d, Lit (l :: ls) c.positive a ∧ d ∈ inc ∧ d.pred = a.pred ∧
        c.origin = a.pred ∧ c.content = d.content ∧ c.vars = clauseVars a.pred a.terms 0 ∧ inc.find? (fun d => decide (d.pred = a.pred)) = some d := by
      intro s a d hd hc hl
      obtain ⟨h1, h2⟩ := find_inc hd
      unfold clauseFor at hc
      split at hc <;> subst hc <;> exact ⟨a, d, hl, h1, h2, h2, rfl, rfl, hd⟩
    cases l with
    | positive a =>
      simp only [incBody] at h
      split at h
      · rename_i d hd
        simp only [List.mem_cons] at h
        rcases h with h | h
        · exact new true a d hd h (by simp [Lit])
        · exact mono _ h
      · exact mono _ h
    | negative a =>
      simp only [incBody] at h
      split at h
      · rename_i d hd
        simp only [List.mem_cons] at h
        rcases h with h | h
        · exact new false a d hd h (by simp [Lit])
        · exact mono _ h
      · exact mono _ h
    | operation o => exact mono _ h

/-- There is a clause for each atom with an incremental predicate. -/
theorem atom_clause (ls : List (LLit α)) (id : Nat) {s : Bool} {a : SAtom α} (h : Lit ls s a) (ha : isInc inc a.pred = true) :
    ∃ c ∈ (incBody inc derived ls id).clauses, c.positive = s ∧ c.origin = a.pred ∧ c.vars = clauseVars a.pred a.terms 0 := by
  induction ls generalizing id with
  | nil => unfold Lit at h; split at h <;> simp at h
  | cons l ls ih =>
    have new : ∀ (d : Directive α), inc.find? (fun d => decide (d.pred = a.pred)) = some d →
        (clauseFor derived d s a id).1.positive = s ∧ (clauseFor derived d s a id).1.origin = a.pred ∧
          (clauseFor derived d s a id).1.vars = clauseVars a.pred a.terms 0 := by
      intro d hd
      unfold clauseFor
      split <;> exact ⟨rfl, (find_inc hd).2, rfl⟩
    cases l with
    | positive b =>
      simp only [incBody]
      by_cases hl : Lit ls s a
      · split <;> obtain ⟨c, h1, h2⟩ := ih _ hl
        · exact ⟨c, List.mem_cons_of_mem _ h1, h2⟩
        · exact ⟨c, h1, h2⟩
      · have : s = true ∧ a = b := by
          cases s <;> simp_all [Lit]
        obtain ⟨rfl, rfl⟩ := this
        split
        · rename_i d hd
          exact ⟨_, List.mem_cons_self, new d hd⟩
        · rename_i hd
          rw [find_none hd] at ha
          exact absurd ha (by simp)
    | negative b =>
      simp only [incBody]
      by_cases hl : Lit ls s a
      · split <;> obtain ⟨c, h1, h2⟩ := ih _ hl
        · exact ⟨c, List.mem_cons_of_mem _ h1, h2⟩
        · exact ⟨c, h1, h2⟩
      · have : s = false ∧ a = b := by
          cases s <;> simp_all [Lit]
        obtain ⟨rfl, rfl⟩ := this
        split
        · rename_i d hd
          exact ⟨_, List.mem_cons_self, new d hd⟩
        · rename_i hd
          rw [find_none hd] at ha
          exact absurd ha (by simp)
    | operation o =>
      refine ih id ?_
      cases s <;> simp_all [Lit]

theorem mem_kept (ls : List (LLit α)) (id : Nat) {l : LLit α} : l ∈ (incBody inc derived ls id).kept ↔ l ∈ ls ∧
    (∀ a, l = .positive a → isInc inc a.pred = false) ∧ (∀ a, l = .negative a → isInc inc a.pred = false) := by
  induction ls generalizing id with
  | nil => simp [incBody]
  | cons x ls ih =>
    cases x with
    | positive b =>
      simp only [incBody]
      split
      · rename_i d hd
        rw [ih, List.mem_cons]
        refine ⟨fun h => ⟨.inr h.1, h.2⟩, fun h => ⟨h.1.resolve_left fun hl => ?_, h.2⟩⟩
        have := h.2.1 b hl
        rw [find_some_isInc hd] at this
        simp at this
      · rename_i hd
        rw [List.mem_cons, List.mem_cons, ih]
        refine ⟨fun h => ?_, fun h => h.1.imp _root_.id fun h' => ⟨h', h.2⟩⟩
        rcases h with rfl | h
        · exact ⟨.inl rfl, fun a ha => by cases ha; exact find_none hd, fun a ha => by cases ha⟩
        · exact ⟨.inr h.1, h.2⟩
    | negative b =>
      simp only [incBody]
      split
      · rename_i d hd
        rw [ih, List.mem_cons]
        refine ⟨fun h => ⟨.inr h.1, h.2⟩, fun h => ⟨h.1.resolve_left fun hl => ?_, h.2⟩⟩
        have := h.2.2 b hl
        rw [find_some_isInc hd] at this
        simp at this
      · rename_i hd
        rw [List.mem_cons, List.mem_cons, ih]
        refine ⟨fun h => ?_, fun h => h.1.imp _root_.id fun h' => ⟨h', h.2⟩⟩
        rcases h with rfl | h
        · exact ⟨.inl rfl, fun a ha => (by cases ha), fun a ha => by cases ha; exact find_none hd⟩
        · exact ⟨.inr h.1, h.2⟩
    | operation o =>
      simp only [incBody]
      rw [List.mem_cons, List.mem_cons, ih]
      refine ⟨fun h => ?_, fun h => h.1.imp _root_.id fun h' => ⟨h', h.2⟩⟩
      rcases h with rfl | h
      · exact ⟨.inl rfl, fun a ha => (by cases ha), fun a ha => by cases ha⟩
      · exact ⟨.inr h.1, h.2⟩

theorem mem_terms (ls : List (LLit α)) (id : Nat) {x : Variable × Operation α} : x ∈ (incBody inc derived ls id).terms ↔
    ∃ s a, Lit ls s a ∧ isInc inc a.pred = true ∧ x ∈ computed a.pred a.terms 0 := by
  induction ls generalizing id with
  | nil => simp [incBody, Lit]
  | cons l ls ih =>
    have up : (∃ s a, Lit ls s a ∧ isInc inc a.pred = true ∧ x ∈ computed a.pred a.terms 0) →
        ∃ s a, Lit (l :: ls) s a ∧ isInc inc a.pred = true ∧ x ∈ computed a.pred a.terms 0 := by
      rintro ⟨s, a, h1, h2⟩
      refine ⟨s, a, ?_, h2⟩
      cases s <;> simp_all [Lit]
    cases l with
    | positive b =>
      simp only [incBody]
      split
      · rename_i d hd
        rw [List.mem_append, ih]
        refine ⟨fun h => h.elim (fun h => ⟨true, b, by simp [Lit], find_some_isInc hd, h⟩) up, ?_⟩
        rintro ⟨s, a, h1, h2, h3⟩
        by_cases hl : Lit ls s a
        · exact .inr ⟨s, a, hl, h2, h3⟩
        · have : a = b := by cases s <;> simp_all [Lit]
          subst this
          exact .inl h3
      · rename_i hd
        rw [ih]
        refine ⟨up, ?_⟩
        rintro ⟨s, a, h1, h2, h3⟩
        by_cases hl : Lit ls s a
        · exact ⟨s, a, hl, h2, h3⟩
        · have : a = b := by cases s <;> simp_all [Lit]
          subst this
          rw [find_none hd] at h2
          simp at h2
    | negative b =>
      simp only [incBody]
      split
      · rename_i d hd
        rw [List.mem_append, ih]
        refine ⟨fun h => h.elim (fun h => ⟨false, b, by simp [Lit], find_some_isInc hd, h⟩) up, ?_⟩
        rintro ⟨s, a, h1, h2, h3⟩
        by_cases hl : Lit ls s a
        · exact .inr ⟨s, a, hl, h2, h3⟩
        · have : a = b := by cases s <;> simp_all [Lit]
          subst this
          exact .inl h3
      · rename_i hd
        rw [ih]
        refine ⟨up, ?_⟩
        rintro ⟨s, a, h1, h2, h3⟩
        by_cases hl : Lit ls s a
        · exact ⟨s, a, hl, h2, h3⟩
        · have : a = b := by cases s <;> simp_all [Lit]
          subst this
          rw [find_none hd] at h2
          simp at h2
    | operation o =>
      simp only [incBody]
      rw [ih]
      refine ⟨up, ?_⟩
      rintro ⟨s, a, h1, h2⟩
      exact ⟨s, a, by cases s <;> simp_all [Lit], h2⟩

/-- The expression that a term stands for if it is not a variable -/
def exprOf : BTerm α → Option (Operation α)
  | .const a => some (.const a)
  | .oper o => some o
  | .var _ => none
  | .anon => none

theorem mem_computed (p : Tag) (ts : List (BTerm α)) (i : Nat) {v : Variable} {o : Operation α} : (v, o) ∈ computed p ts i ↔
    ∃ j t, ts[j]? = some t ∧ exprOf t = some o ∧ v = importVar p (i + j) := by
  induction ts generalizing i with
  | nil => simp [computed]
  | cons t ts ih =>
    have key : (∃ (j : Nat) (u : BTerm α), (t :: ts)[j]? = some u ∧ exprOf u = some o ∧ v = importVar p (i + j)) ↔
        (exprOf t = some o ∧ v = importVar p i) ∨ ∃ (j : Nat) (u : BTerm α), ts[j]? = some u ∧ exprOf u = some o ∧ v = importVar p (i + 1 + j) := by
      constructor
      · rintro ⟨j, u, h1, h2, h3⟩
        cases j with
        | zero => simp only [List.getElem?_cons_zero, Option.some.injEq] at h1; subst h1; exact .inl ⟨h2, h3⟩
        | succ j => exact .inr ⟨j, u, by simpa using h1, h2, by rw [h3]; congr 1; omega⟩
      · rintro (⟨h1, h2⟩ | ⟨j, u, h1, h2, h3⟩)
        · exact ⟨0, t, rfl, h1, h2⟩
        · exact ⟨j + 1, u, by simpa using h1, h2, by rw [h3]; congr 1; omega⟩
    rw [key]
    cases t <;> simp only [computed, exprOf, List.mem_cons, Prod.mk.injEq, ih, Option.some.injEq, reduceCtorEq, false_and, false_or]
    · exact or_congr ⟨fun h => ⟨h.2.symm, h.1⟩, fun h => ⟨h.2, h.1.symm⟩⟩ Iff.rfl
    · exact or_congr ⟨fun h => ⟨h.2.symm, h.1⟩, fun h => ⟨h.2, h.1.symm⟩⟩ Iff.rfl

theorem mem_clauseVars (p : Tag) (ts : List (BTerm α)) (i : Nat) {v : Variable} (h : v ∈ clauseVars p ts i) :
    .var v ∈ ts ∨ (v = anonVar ∧ .anon ∈ ts) ∨ ∃ (j : Nat) (t : BTerm α) (o : Operation α), ts[j]? = some t ∧ exprOf t = some o ∧ v = importVar p (i + j) := by
  induction ts generalizing i with
  | nil => simp [clauseVars] at h
  | cons t ts ih =>
    have up : v ∈ clauseVars p ts (i + 1) → .var v ∈ t :: ts ∨ (v = anonVar ∧ .anon ∈ t :: ts) ∨
        ∃ (j : Nat) (u : BTerm α) (o : Operation α), (t :: ts)[j]? = some u ∧ exprOf u = some o ∧ v = importVar p (i + j) := by
      intro h
      rcases ih _ h with h | h | ⟨j, u, o, h1, h2, h3⟩
      · exact .inl (List.mem_cons_of_mem _ h)
      · exact .inr (.inl ⟨h.1, List.mem_cons_of_mem _ h.2⟩)
      · exact .inr (.inr ⟨j + 1, u, o, by simpa using h1, h2, by rw [h3]; congr 1; omega⟩)
    cases t <;> simp only [clauseVars, List.mem_cons] at h <;> rcases h with rfl | h
    · exact .inl (by simp)
    · exact up h
    · exact .inr (.inl ⟨rfl, by simp⟩)
    · exact up h
    · exact .inr (.inr ⟨0, _, _, rfl, rfl, rfl⟩)
    · exact up h
    · exact .inr (.inr ⟨0, _, _, rfl, rfl, rfl⟩)
    · exact up h

theorem var_mem_clauseVars (p : Tag) (ts : List (BTerm α)) (i : Nat) {v : Variable} (h : .var v ∈ ts) : v ∈ clauseVars p ts i := by
  induction ts generalizing i with
  | nil => simp at h
  | cons t ts ih => cases t <;> simp_all [clauseVars] <;> rcases h with rfl | h <;> simp_all

end rule

/-! ## The meaning of the new rule -/

section meaning
variable [DecidableEq α] [Dom α]
variable {inc : List (Directive α)} {derived : List Tag} {r : WRule α} {id : Nat}

theorem clause_sound (p : Tag) (ts : List (BTerm α)) (i : Nat) (σ : Variable → α) {row : List α}
    (hc : ∀ (j : Nat) t e, ts[j]? = some t → exprOf t = some e → e.eval σ = some (σ (importVar p (i + j))))
    (h : List.Forall₂ (BTerm.Matches σ) ((clauseVars p ts i).map .var) row) : List.Forall₂ (BTerm.Matches σ) ts row := by
  induction ts generalizing i row with
  | nil => simpa [clauseVars] using h
  | cons t ts ih =>
    have hc' : ∀ (j : Nat) t e, ts[j]? = some t → exprOf t = some e → e.eval σ = some (σ (importVar p (i + 1 + j))) := by
      intro j u e h1 h2
      have := hc (j + 1) u e (by simpa using h1) h2
      rw [this]; congr 3; omega
    have h0 := hc 0 t
    cases t <;> simp only [clauseVars, List.map_cons] at h <;> cases h with
    | @cons _ b _ row h1 h2 =>
      refine .cons ?_ (ih _ hc' h2)
      first
        | exact h1
        | exact trivial
        | (have h3 := h0 _ rfl rfl
           simp only [Nat.add_zero] at h3
           simp only [BTerm.Matches] at h1 ⊢
           rw [h1] at h3
           first
             | exact h3
             | (simp only [Operation.eval, Option.some.injEq] at h3; exact h3))

theorem clause_complete (p : Tag) (ts : List (BTerm α)) (i : Nat) (σ σ' : Variable → α) {row : List α} (hv : ∀ v, .var v ∈ ts → σ' v = σ v)
    (hc : ∀ (j : Nat) t e b, ts[j]? = some t → exprOf t = some e → e.eval σ = some b → σ' (importVar p (i + j)) = b)
    (ha : ∀ (j : Nat) b, ts[j]? = some .anon → row[j]? = some b → σ' anonVar = b) (h : List.Forall₂ (BTerm.Matches σ) ts row) :
    List.Forall₂ (BTerm.Matches σ') ((clauseVars p ts i).map .var) row := by
  induction h generalizing i with
  | nil => simp [clauseVars]
  | @cons t b ts row h1 h2 ih =>
    have ih' := ih (i + 1) (fun v h => hv v (List.mem_cons_of_mem _ h)) (fun j u e b h3 h4 h5 => by
      rw [← hc (j + 1) u e b (by simpa using h3) h4 h5]; congr 2; omega) (fun j b h3 h4 => ha (j + 1) b (by simpa using h3) (by simpa using h4))
    cases t with
    | var v => exact .cons (by simp only [BTerm.Matches] at h1 ⊢; rw [hv v (by simp), h1]) ih'
    | anon => exact .cons (ha 0 b rfl rfl) ih'
    | const c => exact .cons (hc 0 _ _ b rfl rfl (by simp only [BTerm.Matches] at h1; simp [Operation.eval, h1])) ih'
    | oper o => exact .cons (hc 0 _ _ b rfl rfl h1) ih'

/-- The new variable `v` stands for the expression `e`. -/
def Stands (r : WRule α) (inc : List (Directive α)) (v : Variable) (e : Operation α) : Prop :=
  ∃ a ∈ r.toS.positive ++ r.toS.negative, isInc inc a.pred = true ∧ ∃ (j : Nat) (t : BTerm α), a.terms[j]? = some t ∧ exprOf t = some e ∧
    v = importVar a.pred j

theorem lit_positive {a : SAtom α} : Lit r.body true a ↔ a ∈ r.toS.positive := by
  simp only [Lit, if_true, WRule.toS, List.mem_filterMap]
  refine ⟨fun h => ⟨_, h, rfl⟩, ?_⟩
  rintro ⟨l, h1, h2⟩
  cases l <;> simp [LLit.positive?] at h2
  subst h2; exact h1

theorem lit_negative {a : SAtom α} : Lit r.body false a ↔ a ∈ r.toS.negative := by
  simp only [Lit, WRule.toS, List.mem_filterMap, Bool.false_eq_true, if_false]
  refine ⟨fun h => ⟨_, h, rfl⟩, ?_⟩
  rintro ⟨l, h1, h2⟩
  cases l <;> simp [LLit.negative?] at h2
  subst h2; exact h1

theorem lit_atom {a : SAtom α} : (∃ s, Lit r.body s a) ↔ a ∈ r.toS.positive ++ r.toS.negative := by
  rw [List.mem_append, ← lit_positive, ← lit_negative]
  constructor
  · rintro ⟨s, h⟩
    cases s
    · exact .inr h
    · exact .inl h
  · rintro (h | h)
    · exact ⟨_, h⟩
    · exact ⟨_, h⟩

theorem inc_head : (incRule inc derived r id).1.toS.head = r.toS.head := rfl
theorem inc_clauses : (incRule inc derived r id).1.clauses = (incBody inc derived r.body id).clauses := rfl

theorem mem_inc_positive {x : SAtom α} : x ∈ (incRule inc derived r id).1.toS.positive ↔ (x ∈ r.toS.positive ∧ isInc inc x.pred = false) ∨
    ∃ c ∈ (incBody inc derived r.body id).clauses, c.positive = true ∧ x = c.atom := by
  simp only [CRule.toS, incRule, List.mem_append, List.mem_map, List.mem_filter]
  refine or_congr ?_ ⟨fun ⟨c, h1, h2⟩ => ⟨c, h1.1, h1.2, h2.symm⟩, fun ⟨c, h1, h2, h3⟩ => ⟨c, ⟨h1, h2⟩, h3.symm⟩⟩
  rw [← lit_positive (r := r)]
  simp only [WRule.toS, List.filterMap_append, List.mem_append, List.mem_filterMap, Lit, if_true]
  constructor
  · rintro (⟨l, h1, h2⟩ | ⟨l, h1, h2⟩)
    · cases l <;> simp [LLit.positive?] at h2
      subst h2
      have := (mem_kept _ _).1 h1
      exact ⟨this.1, this.2.1 _ rfl⟩
    · obtain ⟨y, -, rfl⟩ := List.mem_map.1 h1
      simp [LLit.positive?] at h2
  · rintro ⟨h1, h2⟩
    exact .inl ⟨_, (mem_kept _ _).2 ⟨h1, fun a ha => by cases ha; exact h2, fun a ha => by cases ha⟩, rfl⟩

theorem mem_inc_negative {x : SAtom α} : x ∈ (incRule inc derived r id).1.toS.negative ↔ (x ∈ r.toS.negative ∧ isInc inc x.pred = false) ∨
    ∃ c ∈ (incBody inc derived r.body id).clauses, c.positive = false ∧ x = c.atom := by
  simp only [CRule.toS, incRule, List.mem_append, List.mem_map, List.mem_filter, Bool.not_eq_true']
  refine or_congr ?_ ⟨fun ⟨c, h1, h2⟩ => ⟨c, h1.1, h1.2, h2.symm⟩, fun ⟨c, h1, h2, h3⟩ => ⟨c, ⟨h1, h2⟩, h3.symm⟩⟩
  rw [← lit_negative (r := r)]
  simp only [WRule.toS, List.filterMap_append, List.mem_append, List.mem_filterMap, Lit, Bool.false_eq_true, if_false]
  constructor
  · rintro (⟨l, h1, h2⟩ | ⟨l, h1, h2⟩)
    · cases l <;> simp [LLit.negative?] at h2
      subst h2
      have := (mem_kept _ _).1 h1
      exact ⟨this.1, this.2.2 _ rfl⟩
    · obtain ⟨y, -, rfl⟩ := List.mem_map.1 h1
      simp [LLit.negative?] at h2
  · rintro ⟨h1, h2⟩
    exact .inl ⟨_, (mem_kept _ _).2 ⟨h1, fun a ha => (by cases ha), fun a ha => by cases ha; exact h2⟩, rfl⟩

theorem stands_iff {v : Variable} {e : Operation α} : (v, e) ∈ (incBody inc derived r.body id).terms ↔ Stands r inc v e := by
  rw [mem_terms]
  constructor
  · rintro ⟨s, a, h1, h2, h3⟩
    obtain ⟨j, t, h4, h5, h6⟩ := (mem_computed _ _ _).1 h3
    exact ⟨a, lit_atom.1 ⟨s, h1⟩, h2, j, t, h4, h5, by simpa using h6⟩
  · rintro ⟨a, h1, h2, j, t, h4, h5, h6⟩
    obtain ⟨s, hs⟩ := lit_atom.2 h1
    exact ⟨s, a, hs, h2, (mem_computed _ _ _).2 ⟨j, t, h4, h5, by simpa using h6⟩⟩

theorem mem_inc_operations {o : Operation α} : o ∈ (incRule inc derived r id).1.toS.operations ↔ o ∈ r.toS.operations ∨
    ∃ v e, Stands r inc v e ∧ o = .equal (.var v) e := by
  simp only [CRule.toS, incRule, WRule.toS, List.filterMap_append, List.mem_append, List.mem_filterMap]
  refine or_congr ?_ ?_
  · constructor
    · rintro ⟨l, h1, h2⟩
      exact ⟨l, ((mem_kept _ _).1 h1).1, h2⟩
    · rintro ⟨l, h1, h2⟩
      refine ⟨l, (mem_kept _ _).2 ⟨h1, fun a ha => ?_, fun a ha => ?_⟩, h2⟩ <;> subst ha <;> simp [LLit.operation?] at h2
  · constructor
    · rintro ⟨l, h1, h2⟩
      obtain ⟨⟨v, e⟩, h3, rfl⟩ := List.mem_map.1 h1
      simp only [LLit.operation?, Option.some.injEq] at h2
      exact ⟨v, e, stands_iff.1 h3, h2.symm⟩
    · rintro ⟨v, e, h1, rfl⟩
      exact ⟨.operation (equality (v, e)), List.mem_map.2 ⟨(v, e), stands_iff.2 h1, rfl⟩, rfl⟩

variable (hC : Convertible r fun p => isInc inc p = true)
include hC

theorem Stands.unique {v : Variable} {e e' : Operation α} (h : Stands r inc v e) (h' : Stands r inc v e') : e = e' := by
  obtain ⟨a, h1, h2, j, t, h3, h4, rfl⟩ := h
  obtain ⟨b, g1, g2, k, u, g3, g4, g5⟩ := h'
  obtain ⟨s, hs⟩ := hC.names a h1 h2
  obtain ⟨s', hs'⟩ := hC.names b g1 g2
  rw [hs, hs'] at g5
  obtain ⟨rfl, rfl⟩ := importVar_inj g5
  have := hC.unique a h1 b g1 h2 (hs.trans hs'.symm) j t u h3 g3 (by cases t <;> simp_all [exprOf, isVar]) (by cases u <;> simp_all [exprOf, isVar])
  subst this
  rw [h4] at g4
  exact Option.some.inj g4

omit hC in
theorem Stands.var {v : Variable} {e : Operation α} (h : Stands r inc v e) : ∃ p i, v = importVar p i := by
  obtain ⟨a, -, -, j, -, -, -, h⟩ := h
  exact ⟨_, _, h⟩

omit hC in
theorem Stands.op {v : Variable} {e : Operation α} (h : Stands r inc v e) : .equal (.var v) e ∈ (incRule inc derived r id).1.toS.operations :=
  mem_inc_operations.2 (.inr ⟨v, e, h, rfl⟩)

theorem Stands.vars {v : Variable} {e : Operation α} (h : Stands r inc v e) {w : Variable} (hw : w ∈ e.vars) : SSafe r.toS w ∧ w ∈ r.toS.vars := by
  obtain ⟨a, h1, h2, j, t, h3, h4, -⟩ := h
  cases t with
  | var v => simp [exprOf] at h4
  | anon => simp [exprOf] at h4
  | const c => simp only [exprOf, Option.some.injEq] at h4; subst h4; simp [Operation.vars] at hw
  | oper o =>
    simp only [exprOf, Option.some.injEq] at h4
    subst h4
    have hm := List.mem_of_getElem? h3
    exact ⟨hC.operSafe a h1 _ hm w hw, SRule.mem_vars_oper h1 hm hw⟩

omit hC in
theorem inc_safe {v : Variable} (h : SSafe r.toS v) : SSafe (incRule inc derived r id).1.toS v := by
  induction h with
  | @atom a v ha hv =>
    by_cases hi : isInc inc a.pred = true
    · obtain ⟨c, h1, h2, -, h4⟩ := atom_clause (derived := derived) r.body id (lit_positive.2 ha) hi
      refine .atom (mem_inc_positive.2 (.inr ⟨c, h1, h2, rfl⟩)) ?_
      simp only [Clause.atom, List.mem_map]
      exact ⟨v, by rw [h4]; exact var_mem_clauseVars _ _ _ hv, rfl⟩
    · exact .atom (mem_inc_positive.2 (.inl ⟨ha, by simpa using hi⟩)) hv
  | assign ho he _ ih => exact .assign (mem_inc_operations.2 (.inl ho)) he ih

theorem Stands.safe {v : Variable} {e : Operation α} (h : Stands r inc v e) : SSafe (incRule inc derived r id).1.toS v :=
  .assign h.op rfl fun _ hw => inc_safe (h.vars hC hw).1

theorem safe_of_inc {v : Variable} (h : SSafe (incRule inc derived r id).1.toS v) : SSafe r.toS v ∨ (∃ e, Stands r inc v e) ∨
    (v = anonVar ∧ ∃ a ∈ r.toS.positive, isInc inc a.pred = true ∧ .anon ∈ a.terms) := by
  induction h with
  | @atom a v ha hv =>
    rcases mem_inc_positive.1 ha with ⟨h1, -⟩ | ⟨c, h1, h2, rfl⟩
    · exact .inl (.atom h1 hv)
    · obtain ⟨a, d, g1, g2, g3, g4, -, g5, -⟩ := clause_atom _ _ h1
      rw [h2] at g1
      have hi : isInc inc a.pred = true := isInc_iff.2 ⟨d, g2, g3⟩
      simp only [Clause.atom, List.mem_map, BTerm.var.injEq, exists_eq_right, g5] at hv
      rcases mem_clauseVars _ _ _ hv with h | ⟨h3, h4⟩ | ⟨j, t, e, h3, h4, h5⟩
      · exact .inl (.atom (lit_positive.1 g1) h)
      · exact .inr (.inr ⟨h3, a, lit_positive.1 g1, hi, h4⟩)
      · exact .inr (.inl ⟨e, a, List.mem_append_left _ (lit_positive.1 g1), hi, j, t, h3, h4, by simpa using h5⟩)
  | @assign o e v ho he _ ih =>
    rcases mem_inc_operations.1 ho with h1 | ⟨w, e', h1, rfl⟩
    · refine .inl (.assign h1 he fun w hw => ?_)
      have hw' := hC.ordinary w (SRule.mem_vars_op h1 ((assignment_vars he).2 w hw))
      rcases ih w hw with h | ⟨e', h⟩ | ⟨h, -⟩
      · exact h
      · obtain ⟨p, i, rfl⟩ := h.var
        exact absurd rfl (hw'.2 p i)
      · exact absurd h hw'.1
    · simp only [Operation.variableAssignment, Option.some.injEq, Prod.mk.injEq] at he
      obtain ⟨rfl, rfl⟩ := he
      exact .inr (.inl ⟨_, h1⟩)

theorem inc_safe_iff {v : Variable} (hv : Ordinary v) : SSafe (incRule inc derived r id).1.toS v ↔ SSafe r.toS v := by
  refine ⟨fun h => ?_, inc_safe⟩
  rcases safe_of_inc hC h with h | ⟨e', h⟩ | ⟨h, -⟩
  · exact h
  · obtain ⟨p, i, rfl⟩ := h.var
    exact absurd rfl (hv.2 p i)
  · exact absurd h hv.1

omit [DecidableEq α] [Dom α] hC in
/-- The facts `J` that the new rule sees correspond to the facts `P`. -/
structure Agree (r : WRule α) (inc : List (Directive α)) (derived : List Tag) (id : Nat) (J P : Interp α) : Prop where
  kept : ∀ a ∈ r.toS.positive ++ r.toS.negative, isInc inc a.pred = false → ∀ row, J a.pred row ↔ P a.pred row
  clause : ∀ c ∈ (incBody inc derived r.body id).clauses, ∀ row, J c.pred row ↔ P c.origin row

omit hC in
theorem exprOf_eval {t : BTerm α} {e : Operation α} (h : exprOf t = some e) {σ : Variable → α} {b : α} (hb : BTerm.Matches σ t b) :
    e.eval σ = some b := by
  cases t with
  | var v => simp [exprOf] at h
  | anon => simp [exprOf] at h
  | const c => simp only [exprOf, Option.some.injEq] at h; subst h; simpa [BTerm.Matches, Operation.eval] using hb
  | oper o => simp only [exprOf, Option.some.injEq] at h; subst h; exact hb

omit hC [DecidableEq α] [Dom α] in
theorem forall₂_get {A B : Type} {R : A → B → Prop} {l : List A} {m : List B} (h : List.Forall₂ R l m) {i : Nat} {a : A} (ha : l[i]? = some a) :
    ∃ b, m[i]? = some b ∧ R a b := by
  induction h generalizing i with
  | nil => simp at ha
  | cons h1 _ ih =>
    cases i with
    | zero => simp only [List.getElem?_cons_zero, Option.some.injEq] at ha; subst ha; exact ⟨_, rfl, h1⟩
    | succ i => simpa using ih (by simpa using ha)

/-- If the new body holds, the body holds. -/
theorem body_of_inc {J K P N : Interp α} (hJ : Agree r inc derived id J P) (hK : Agree r inc derived id K N) {σ : Variable → α}
    (h : SBody (incRule inc derived r id).1.toS J K σ) : SBody r.toS P N σ := by
  have heq : ∀ v e, Stands r inc v e → e.eval σ = some (σ v) := by
    intro v e hv
    refine (eval_assign σ v e).1 (h.ops _ hv.op fun w hw => ?_)
    simp only [Operation.vars, List.mem_append, List.mem_singleton] at hw
    rcases hw with rfl | hw
    · exact hv.safe hC
    · exact inc_safe (hv.vars hC hw).1
  refine ⟨fun a ha => ?_, fun o ho hv => h.ops o (mem_inc_operations.2 (.inl ho)) fun v hv' => inc_safe (hv v hv'),
    fun a ha => ?_, ⟨fun a ha o ho => ?_, h.defined.head, h.defined.agg⟩⟩
  · by_cases hi : isInc inc a.pred = true
    · obtain ⟨c, h1, h2, h3, h4⟩ := atom_clause (derived := derived) r.body id (lit_positive.2 ha) hi
      obtain ⟨row, h5, h6⟩ := h.pos _ (mem_inc_positive.2 (.inr ⟨c, h1, h2, rfl⟩))
      refine ⟨row, h3 ▸ (hJ.clause c h1 row).1 h5, clause_sound a.pred a.terms 0 σ (fun j t e g1 g2 => ?_) ?_⟩
      · exact heq _ _ ⟨a, List.mem_append_left _ ha, hi, j, t, g1, g2, by simp⟩
      · rw [← h4]; exact h6
    · obtain ⟨row, h1, h2⟩ := h.pos a (mem_inc_positive.2 (.inl ⟨ha, by simpa using hi⟩))
      exact ⟨row, (hJ.kept a (List.mem_append_left _ ha) (by simpa using hi) row).1 h1, h2⟩
  · rintro ⟨τ, row, h1, h2, h3, h4⟩
    classical
    let b : Option α := (a.terms.findIdx? (fun t => match t with | .anon => true | _ => false)).bind fun i => row[i]?
    let τ' : Variable → α := fun v => if SSafe (incRule inc derived r id).1.toS v then σ v else if v = anonVar then b.getD (σ v) else τ v
    have hord : ∀ v, Ordinary v → τ' v = τ v := by
      intro v hv
      show (if SSafe (incRule inc derived r id).1.toS v then σ v else if v = anonVar then b.getD (σ v) else τ v) = τ v
      split
      · rename_i hc
        exact (h1 v ((inc_safe_iff hC hv).1 hc)).symm
      · rw [if_neg hv.1]
    have hsafe : ∀ v, SSafe (incRule inc derived r id).1.toS v → τ' v = σ v := fun v hv => if_pos hv
    have hops : ∀ (x : SAtom α), (∀ v, .var v ∈ x.terms → Ordinary v → .var v ∈ a.terms) → ∀ o ∈ (incRule inc derived r id).1.toS.operations,
        (∀ v ∈ o.vars, SSafe (incRule inc derived r id).1.toS v ∨ .var v ∈ x.terms) → o.eval τ' = some Dom.tru := by
      intro x hx o ho hv
      by_cases hall : ∀ v ∈ o.vars, SSafe (incRule inc derived r id).1.toS v
      · rw [Operation.eval_congr o (fun v hv' => hsafe v (hall v hv'))]
        exact h.ops o ho hall
      · rcases mem_inc_operations.1 ho with ho | ⟨v, e, g1, rfl⟩
        · have ho' : ∀ v ∈ o.vars, Ordinary v := fun v hv => hC.ordinary v (SRule.mem_vars_op ho hv)
          rw [Operation.eval_congr o fun v hv' => hord v (ho' v hv')]
          exact h4 o ho fun v hv' => (hv v hv').imp (inc_safe_iff hC (ho' v hv')).1 fun h => hx v h (ho' v hv')
        · refine absurd (fun w hw => ?_) hall
          simp only [Operation.vars, List.mem_append, List.mem_singleton] at hw
          rcases hw with rfl | hw
          · exact g1.safe hC
          · exact inc_safe (g1.vars hC hw).1
    by_cases hi : isInc inc a.pred = true
    · obtain ⟨c, g1, g2, g3, g4⟩ := atom_clause (derived := derived) r.body id (lit_negative.2 ha) hi
      refine h.neg _ (mem_inc_negative.2 (.inr ⟨c, g1, g2, rfl⟩)) ⟨τ', row, hsafe, (hK.clause c g1 row).2 (g3 ▸ h2), ?_, hops _ ?_⟩
      · show List.Forall₂ (BTerm.Matches _) (c.vars.map BTerm.var) row
        rw [g4]
        refine clause_complete a.pred a.terms 0 τ τ' (fun v hv => hord v (hC.ordinary v (SRule.mem_vars_var (List.mem_append_right _ ha) hv)))
          (fun j t e b g5 g6 g7 => ?_) (fun j b' g5 g6 => ?_) h3
        · have hst : Stands r inc (importVar a.pred (0 + j)) e := ⟨a, List.mem_append_right _ ha, hi, j, t, g5, g6, by simp⟩
          rw [hsafe _ (hst.safe hC)]
          have := heq _ _ hst
          rw [Operation.eval_congr e (fun v hv => (h1 v (hst.vars hC hv).1).symm), g7] at this
          exact (Option.some.inj this).symm
        · have hns : ¬ SSafe (incRule inc derived r id).1.toS anonVar := by
            intro hc
            rcases safe_of_inc hC hc with hc | ⟨e, hc⟩ | ⟨-, a', k1, k2, k3⟩
            · have : Ordinary anonVar := by
                cases hc with
                | atom ha hv => exact hC.ordinary _ (SRule.mem_vars_var (List.mem_append_left _ ha) hv)
                | assign ho he _ => exact hC.ordinary _ (SRule.mem_vars_op ho (assignment_vars he).1)
              exact this.1 rfl
            · obtain ⟨p, i, hp⟩ := hc.var
              exact anonVar_importVar p i hp
            · exact hC.anonNeg a' k1 a ha k2 hi k3 (List.mem_of_getElem? g5)
          show (if SSafe (incRule inc derived r id).1.toS anonVar then σ anonVar else if anonVar = anonVar then b.getD (σ anonVar) else τ anonVar) = b'
          rw [if_neg hns, if_pos rfl]
          have hfi : a.terms.findIdx? (fun t => match t with | .anon => true | _ => false) = some j := by
            rw [List.findIdx?_eq_some_iff_getElem]
            obtain ⟨hj, hj'⟩ := List.getElem?_eq_some_iff.1 g5
            refine ⟨hj, by rw [hj'], fun k hk => ?_⟩
            have hkl : k < a.terms.length := by omega
            cases ht : a.terms[k] with
            | anon =>
              have := hC.anonOnce a (List.mem_append_right _ ha) hi k j (by rw [List.getElem?_eq_getElem hkl, ht]) g5
              omega
            | var v => simp
            | const v => simp
            | oper v => simp
          have : b = some b' := by
            show (a.terms.findIdx? _).bind _ = _
            rw [hfi]; exact g6
          rw [this]; rfl
      · intro v hv ho
        simp only [Clause.atom, List.mem_map, BTerm.var.injEq, exists_eq_right, g4] at hv
        rcases mem_clauseVars _ _ _ hv with h | ⟨h3, h4⟩ | ⟨j, t, e, h3, h4, h5⟩
        · exact h
        · exact absurd h3 ho.1
        · exact absurd h5 (ho.2 _ _)
    · refine h.neg a (mem_inc_negative.2 (.inl ⟨ha, by simpa using hi⟩)) ⟨τ', row, hsafe,
        (hK.kept a (List.mem_append_right _ ha) (by simpa using hi) row).2 h2, ?_, hops a fun v hv _ => hv⟩
      exact matches_congr (fun v hv => hord v (hC.ordinary v (SRule.mem_vars_var (List.mem_append_right _ ha) hv)))
        (fun o ho v hv => hord v (hC.ordinary v (SRule.mem_vars_oper (List.mem_append_right _ ha) ho hv))) h3
  · by_cases hi : isInc inc a.pred = true
    · obtain ⟨j, hj⟩ := List.mem_iff_getElem?.1 ho
      rw [heq _ _ ⟨a, List.mem_append_right _ ha, hi, j, _, hj, rfl, rfl⟩]
      simp
    · exact h.defined.neg a (mem_inc_negative.2 (.inl ⟨ha, by simpa using hi⟩)) o ho

/-- If the body holds, the new body holds for suitable values of the new variables. -/
theorem inc_of_body {J K P N : Interp α} (hJ : Agree r inc derived id J P) (hK : Agree r inc derived id K N) {σ : Variable → α}
    (h : SBody r.toS P N σ) : ∃ σ', (∀ v, Ordinary v → σ' v = σ v) ∧ SBody (incRule inc derived r id).1.toS J K σ' := by
  classical
  have hdef : ∀ v e, Stands r inc v e → ∃ b, e.eval σ = some b := by
    rintro v e ⟨a, h1, h2, j, t, h3, h4, -⟩
    rcases List.mem_append.1 h1 with h1 | h1
    · obtain ⟨row, -, g2⟩ := h.pos a h1
      obtain ⟨b, -, g4⟩ := forall₂_get g2 h3
      exact ⟨b, exprOf_eval h4 g4⟩
    · cases t with
      | var v => simp [exprOf] at h4
      | anon => simp [exprOf] at h4
      | const c => simp only [exprOf, Option.some.injEq] at h4; subst h4; exact ⟨c, rfl⟩
      | oper o =>
        simp only [exprOf, Option.some.injEq] at h4; subst h4
        exact Option.ne_none_iff_exists'.1 (h.defined.neg a h1 _ (List.mem_of_getElem? h3))
  -- the value of the anonymous variable
  have hanon : ∃ b : α, ∀ a ∈ r.toS.positive, isInc inc a.pred = true → .anon ∈ a.terms → ∃ row, P a.pred row ∧ a.Matches σ row ∧
      ∀ (j : Nat) b', a.terms[j]? = some .anon → row[j]? = some b' → b = b' := by
    by_cases hx : ∃ a ∈ r.toS.positive, isInc inc a.pred = true ∧ .anon ∈ a.terms
    · obtain ⟨a, h1, h2, h3⟩ := hx
      obtain ⟨row, g1, g2⟩ := h.pos a h1
      obtain ⟨j, hj⟩ := List.mem_iff_getElem?.1 h3
      obtain ⟨b, hb, -⟩ := forall₂_get g2 hj
      refine ⟨b, fun a' k1 k2 k3 => ?_⟩
      have := hC.anonPos a h1 a' k1 h2 k2 h3 k3
      subst this
      refine ⟨row, g1, g2, fun j' b' m1 m2 => ?_⟩
      have := hC.anonOnce a (List.mem_append_left _ h1) h2 j j' hj m1
      subst this
      rw [hb] at m2
      exact Option.some.inj m2
    · exact ⟨σ anonVar, fun a h1 h2 h3 => absurd ⟨a, h1, h2, h3⟩ hx⟩
  obtain ⟨b0, hb0⟩ := hanon
  let σ' : Variable → α := fun v => if v = anonVar then b0 else
    if hv : ∃ b e, Stands r inc v e ∧ e.eval σ = some b then hv.choose else σ v
  have hord : ∀ v, Ordinary v → σ' v = σ v := by
    intro v hv
    show (if v = anonVar then b0 else if hv : ∃ b e, Stands r inc v e ∧ e.eval σ = some b then hv.choose else σ v) = σ v
    rw [if_neg hv.1, dif_neg]
    rintro ⟨b, o, h1, -⟩
    obtain ⟨p, i, rfl⟩ := h1.var
    exact hv.2 p i rfl
  have hval : ∀ v e b, Stands r inc v e → e.eval σ = some b → σ' v = b := by
    intro v e b h1 h2
    have hex : ∃ b e, Stands r inc v e ∧ e.eval σ = some b := ⟨b, e, h1, h2⟩
    have hne : v ≠ anonVar := by
      obtain ⟨p, i, rfl⟩ := h1.var
      exact (anonVar_importVar p i).symm
    have e1 : σ' v = hex.choose := by
      show (if v = anonVar then b0 else if hv : ∃ b e, Stands r inc v e ∧ e.eval σ = some b then hv.choose else σ v) = _
      rw [if_neg hne, dif_pos hex]
    obtain ⟨o', h3, h4⟩ := hex.choose_spec
    rw [e1]
    rw [h3.unique hC h1, h2] at h4
    exact (Option.some.inj h4).symm
  have hvar : ∀ v ∈ r.toS.vars, σ' v = σ v := fun v hv => hord v (hC.ordinary v hv)
  refine ⟨σ', hord, ⟨fun x hx => ?_, fun o ho hv => ?_, fun x hx => ?_, ?_⟩⟩
  · rcases mem_inc_positive.1 hx with ⟨h1, h2⟩ | ⟨c, h1, h2, rfl⟩
    · obtain ⟨row, h3, h4⟩ := h.pos x h1
      exact ⟨row, (hJ.kept x (List.mem_append_left _ h1) h2 row).2 h3,
        matches_congr (fun v hv => hvar v (SRule.mem_vars_var (List.mem_append_left _ h1) hv))
          (fun o ho v hv => hvar v (SRule.mem_vars_oper (List.mem_append_left _ h1) ho hv)) h4⟩
    · obtain ⟨a, d, g1, g2, g3, g4, -, g5, -⟩ := clause_atom _ _ h1
      rw [h2] at g1
      have ha := lit_positive.1 g1
      have hi : isInc inc a.pred = true := isInc_iff.2 ⟨d, g2, g3⟩
      have hrow : ∃ row, P a.pred row ∧ a.Matches σ row ∧ ∀ (j : Nat) b', a.terms[j]? = some .anon → row[j]? = some b' → b0 = b' := by
        by_cases han : .anon ∈ a.terms
        · exact hb0 a ha hi han
        · obtain ⟨row, k1, k2⟩ := h.pos a ha
          exact ⟨row, k1, k2, fun j b' m1 _ => absurd (List.mem_of_getElem? m1) han⟩
      obtain ⟨row, k1, k2, k3⟩ := hrow
      refine ⟨row, (hJ.clause c h1 row).2 (g4 ▸ k1), ?_⟩
      show List.Forall₂ (BTerm.Matches _) (c.vars.map BTerm.var) row
      rw [g5]
      refine clause_complete a.pred a.terms 0 σ σ' (fun v hv => hvar v (SRule.mem_vars_var (List.mem_append_left _ ha) hv))
        (fun j t e b m1 m2 m3 => hval _ e b ⟨a, List.mem_append_left _ ha, hi, j, t, m1, m2, by simp⟩ m3) (fun j b m1 m2 => ?_) k2
      show (if anonVar = anonVar then b0 else _) = b
      rw [if_pos rfl]
      exact k3 j b m1 m2
  · rcases mem_inc_operations.1 ho with ho | ⟨v, e, h1, rfl⟩
    · rw [Operation.eval_congr o fun v hv' => hvar v (SRule.mem_vars_op ho hv')]
      exact h.ops o ho fun v hv' => (inc_safe_iff hC (hC.ordinary v (SRule.mem_vars_op ho hv'))).1 (hv v hv')
    · obtain ⟨b, hb⟩ := hdef v e h1
      refine (eval_assign σ' v e).2 ?_
      rw [hval _ _ b h1 hb, ← hb]
      exact Operation.eval_congr _ fun w hw => hvar w (h1.vars hC hw).2
  · have hsafe : ∀ v, SSafe r.toS v → σ' v = σ v := by
      intro v hv
      refine hord v ?_
      cases hv with
      | atom ha hv => exact hC.ordinary _ (SRule.mem_vars_var (List.mem_append_left _ ha) hv)
      | assign ho he _ => exact hC.ordinary _ (SRule.mem_vars_op ho (assignment_vars he).1)
    rintro ⟨τ, row, h1, h2, h3, h4⟩
    rcases mem_inc_negative.1 hx with ⟨g1, g2⟩ | ⟨c, g1, g2, rfl⟩
    · exact h.neg x g1 ⟨τ, row, fun v hv => (h1 v (inc_safe hv)).trans (hsafe v hv), (hK.kept x (List.mem_append_right _ g1) g2 row).1 h2, h3,
        fun o ho hv => h4 o (mem_inc_operations.2 (.inl ho)) fun v hv' => (hv v hv').imp inc_safe _root_.id⟩
    · obtain ⟨a, d, m1, m2, m3, m4, -, m5, -⟩ := clause_atom _ _ g1
      rw [g2] at m1
      have ha := lit_negative.1 m1
      have hi : isInc inc a.pred = true := isInc_iff.2 ⟨d, m2, m3⟩
      refine h.neg a ha ⟨τ, row, fun v hv => (h1 v (inc_safe hv)).trans (hsafe v hv), m4 ▸ (hK.clause c g1 row).1 h2, ?_, fun o ho hv =>
        h4 o (mem_inc_operations.2 (.inl ho)) fun v hv' => (hv v hv').imp inc_safe fun hv => ?_⟩
      · refine clause_sound a.pred a.terms 0 τ (fun j t e k1 k2 => ?_) (by rw [← m5]; exact h3)
        have hst : Stands r inc (importVar a.pred (0 + j)) e := ⟨a, List.mem_append_right _ ha, hi, j, t, k1, k2, by simp⟩
        obtain ⟨b, hb⟩ := hdef _ _ hst
        rw [h1 _ (hst.safe hC), hval _ _ b hst hb, ← hb]
        exact Operation.eval_congr e fun w hw => (h1 w (inc_safe (hst.vars hC hw).1)).trans (hvar w (hst.vars hC hw).2)
      · simp only [Clause.atom, List.mem_map, BTerm.var.injEq, exists_eq_right, m5]
        exact var_mem_clauseVars _ _ _ hv
  · refine ⟨fun a ha o ho => ?_, fun x hx t ht hc y => ?_, fun x hx t ht k i d hk => ?_⟩
    · rcases mem_inc_negative.1 ha with ⟨g1, g2⟩ | ⟨c, g1, g2, rfl⟩
      · rw [Operation.eval_congr o fun v hv => hvar v (SRule.mem_vars_oper (List.mem_append_right _ g1) ho hv)]
        exact h.defined.neg a g1 o ho
      · simp [Clause.atom] at ho
    · rw [HTerm.value_congr y t fun v hv => hvar v (SRule.mem_vars_head (S := r.toS) hx (HTerm.mem_varsList ht (HTerm.outerVars_sub t hv)))]
      exact h.defined.head x hx t ht hc y
    · rw [Operation.eval_congr i fun v hv => hvar v (SRule.mem_vars_head (S := r.toS) hx (HTerm.mem_varsList ht
        (HTerm.agg?_vars t hk (List.mem_append_left _ hv))))]
      exact h.defined.agg x hx t ht k i d hk

/-- **Replacing atoms by import clauses does not change what a rule derives**, if the clauses see the rows of the imports. -/
theorem inc_derives {J K P N : Interp α} (hJ : Agree r inc derived id J P) (hK : Agree r inc derived id K N) (p : Tag) (row : List α) :
    SDerives (incRule inc derived r id).1.toS J K p row ↔ SDerives r.toS P N p row := by
  have key : ∀ {J P : Interp α}, Agree r inc derived id J P → (SDerivesWith (incRule inc derived r id).1.toS (SBody (incRule inc derived r id).1.toS J K) p row ↔
      SDerivesWith r.toS (SBody r.toS P N) p row) :=
    fun hJ => derivesWith_congr inc_head (fun σ h => body_of_inc hC hJ hK h) (fun σ h => by
      obtain ⟨σ', h1, h2⟩ := inc_of_body hC hJ hK h
      exact ⟨σ', fun x hx v hv => h1 v (hC.ordinary v (SRule.mem_vars_head hx hv)), h2⟩) p row
  exact or_congr (and_congr Iff.rfl (key hJ)) (and_congr Iff.rfl (key hK))

end meaning
end Verif.Inc
