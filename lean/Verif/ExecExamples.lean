import Verif.PropExec
import Verif.PlanBuiltins

/-!
# Example for C49

The plan for the rule `P(?x, ?z) :- E(?x, ?y), E(?y, ?z)` where table 0 is `E` and table 1 contains the facts for `P` found before.
-/

set_option linter.unusedSimpArgs false
set_option linter.unusedVariables false
set_option linter.style.haveILetI false

namespace Verif
namespace XPlan
namespace Example
open Permut (Built Moves)

abbrev Nd := Node Nat DV Fn.UFn Fn.BFn Fn.TFn Fn.NFn
abbrev Ot := Out Nat DV Fn.UFn Fn.BFn Fn.TFn Fn.NFn

/-- `?x` is column name 0, `?y` is 1, `?z` is 2 -/
def fetchE : Nd := .mk 1 [] (.fetch 0 ident) 0 Fin.elim0
def atom1 : Nd := .mk 2 [0, 1] (.union 2) 1 fun _ => fetchE
def atom2 : Nd := .mk 4 [1, 2] (.union 2) 1 fun _ => fetchE
/-- the variable order is `?x, ?z, ?y`, so that the second atom needs the columns of `E` in the opposite order -/
def body : Nd := .mk 5 [0, 2, 1] .join 2 fun i => if i = 0 then atom1 else atom2
def head : Nd := .mk 6 [0, 2] .project 1 fun _ => body
def fetchP : Nd := .mk 7 [] (.fetch 1 ident) 0 Fin.elim0
def old : Nd := .mk 8 [0, 2] (.union 2) 1 fun _ => fetchP
def newRows : Nd := .mk 9 [0, 2] .subtract 2 fun i => if i = 0 then head else old
def result : Nd := .mk 10 [0, 2] (.union 2) 1 fun _ => newRows

/-- the body and the head are temporary tables -/
def outs : List Ot := [⟨body, none, true⟩, ⟨head, none, false⟩, ⟨newRows, none, false⟩, ⟨result, some ident, false⟩]

def nodeOf : Nat → Nd
  | 1 => fetchE | 2 => atom1 | 4 => atom2 | 5 => body | 6 => head | 7 => fetchP | 8 => old | 9 => newRows | _ => result

def known (t : Nat) : Prop := t = 0 ∨ t = 1

theorem swap_idx : alignIdx [1, 2] [0, 2, 1] = [1, 0] := by
  unfold alignIdx
  simp [List.mergeSort, List.MergeSort.Internal.splitInTwo, alignKey, List.range, List.range.loop, List.merge]

theorem id_idx : alignIdx [0, 1] [0, 2, 1] = [0, 1] := by
  unfold alignIdx
  exact List.mergeSort_of_pairwise (by decide)

theorem id_idx2 : alignIdx [0, 2] [0, 2] = [0, 1] := by
  unfold alignIdx
  exact List.mergeSort_of_pairwise (by decide)

theorem fromVector_id : Permut.fromVector [0, 1] = ident := by
  have h : Permut.trim [0, 1] = [] := by rw [Permut.trim]; simp; rw [Permut.trim]; simp; rw [Permut.trim]; rfl
  rw [Permut.fromVector, h]; rfl

theorem nope {p : Prop} (h : false = true) : p := Bool.noConfusion h

theorem ident_moves (n : Nat) : Moves ident n := by intro i _; rfl
theorem swap_moves2 : Moves swap01 2 := by
  intro i hi
  rw [swap01_eq, Permut.get, List.getElem?_eq_none (by simpa using hi)]; rfl

theorem permute_id (l : List Nat) : ident.permute l = some l := ident_permute l

theorem ordered_id (l : List Nat) : orderedMarkers l ident = some l := by
  unfold orderedMarkers
  split
  · rfl
  · exact permute_id l

theorem align1 : align (M := Nat) [0, 1] [0, 2, 1] = some ([0, 1], ident) := by
  unfold align
  rw [if_pos (by decide), id_idx, fromVector_id, permute_id]; rfl
theorem align2 : align (M := Nat) [1, 2] [0, 2, 1] = some ([2, 1], swap01) := by
  unfold align
  rw [if_pos (by decide), swap_idx, ← swap01, swap01_eq]; rfl
theorem align3 : align (M := Nat) [0, 2] [0, 2] = some ([0, 2], ident) := by
  unfold align
  rw [if_pos (by decide), id_idx2, fromVector_id, permute_id]; rfl

variable {α : Type} [SVal α]

def tabAr (_ : Nat) : Nat := 2
/-- projections are computed of the body only -/
def D (i : Nat) : Prop := i = 5

variable (e : PEnv α DV Fn.UFn Fn.BFn Fn.TFn Fn.NFn)

theorem fetchE_fits (o : Permut) (ho : Built o) (hm : Moves o 2) (r : Nat) (m : Mode) : Fits e tabAr outs D fetchE r o m := by
  refine ⟨ho, hm, .inl rfl, ⟨rfl, .default, ident_moves _⟩, fun h => ?_, fun i => i.elim0⟩
  simp [Kind.isProject] at h

theorem fetchP_fits (o : Permut) (ho : Built o) (hm : Moves o 2) (r : Nat) (m : Mode) : Fits e tabAr outs D fetchP r o m := by
  refine ⟨ho, hm, .inl rfl, ⟨rfl, .default, ident_moves _⟩, fun h => ?_, fun i => i.elim0⟩
  simp [Kind.isProject] at h

theorem atom_fits {ms : List Nat} {id : Nat} (hms : ms.length = 2) (o : Permut) (ho : Built o) (hm : Moves o 2) (r : Nat) (hr : r = 5)
    (m : Mode) : Fits e tabAr outs D (.mk id ms (.union 2) 1 fun _ => fetchE) r o m := by
  subst hr
  refine ⟨ho, hm, .inr hms, fun i => rfl, fun h => by simp [Kind.isProject] at h, fun i out al _ h2 => ?_⟩
  have h3 : al.2 = o := by cases h2; rfl
  refine ⟨fun h => nope h, fun _ => ⟨rfl, ?_⟩⟩
  rw [h3]
  exact fetchE_fits e o ho hm _ _

theorem old_fits (m : Mode) : Fits e tabAr outs D old 9 ident m := by
  refine ⟨.default, ident_moves _, .inr rfl, fun i => rfl, fun h => by simp [Kind.isProject] at h, fun i out al _ h2 => ?_⟩
  have h3 : al.2 = ident := by cases h2; rfl
  refine ⟨fun h => nope h, fun _ => ⟨rfl, ?_⟩⟩
  rw [h3]
  exact fetchP_fits e ident .default (ident_moves _) _ _

theorem body_fits : Fits e tabAr outs D body 5 ident ⟨false, false⟩ := by
  refine ⟨.default, ident_moves _, .inr rfl, ⟨by decide, by decide, by decide, by decide⟩, fun h => by simp [Kind.isProject] at h,
    fun i out al h1 h2 => ?_⟩
  rw [ordered_id] at h1
  cases h1
  match i, h2 with
  | ⟨0, _⟩, h2 =>
    have h2 : align (M := Nat) [0, 1] [0, 2, 1] = some al := h2
    rw [align1] at h2
    cases h2
    exact ⟨fun h => nope h, fun _ => ⟨rfl, atom_fits e rfl _ .default (ident_moves _) _ rfl _⟩⟩
  | ⟨1, _⟩, h2 =>
    have h2 : align (M := Nat) [1, 2] [0, 2, 1] = some al := h2
    rw [align2] at h2
    cases h2
    exact ⟨fun h => nope h, fun _ => ⟨rfl, atom_fits e rfl _ swap01_built swap_moves2 _ rfl _⟩⟩

theorem head_fits : Fits e tabAr outs D head 6 ident ⟨false, false⟩ := by
  refine ⟨.default, ident_moves _, .inr rfl, ⟨rfl, rfl, by decide, by decide⟩, fun _ i => ⟨fun x _ _ => rfl, fun h => nomatch (show some _ = none from h)⟩,
    fun i out al h1 h2 => ?_⟩
  have h3 : al.2 = ident := by cases h2; rfl
  rw [h3]
  refine ⟨fun _ => ⟨body_fits e, fun _ => ⟨rfl, rfl⟩, fun h => by exact absurd rfl h, fun h => nope h⟩,
    fun h => nope h⟩

theorem newRows_fits : Fits e tabAr outs D newRows 9 ident ⟨false, false⟩ := by
  refine ⟨.default, ident_moves _, .inr rfl, ⟨by decide, by decide, by decide⟩, fun h => by simp [Kind.isProject] at h,
    fun i out al h1 h2 => ?_⟩
  rw [ordered_id] at h1
  cases h1
  match i, h2 with
  | ⟨0, _⟩, h2 =>
    have h3 : al.2 = ident := by cases h2; rfl
    rw [h3]
    refine ⟨fun _ => ⟨head_fits e, fun h => absurd h (show ¬ (6 : Nat) = 5 by decide), fun _ => rfl, fun _ i h => ?_⟩, fun h => nope h⟩
    exact absurd h (show ¬ ([0, 2] : List Nat) = [0, 2, 1] by decide)
  | ⟨1, _⟩, h2 =>
    have h2 : align (M := Nat) [0, 2] [0, 2] = some al := h2
    rw [align3] at h2
    cases h2
    exact ⟨fun h => nope h, fun _ => ⟨rfl, old_fits e _⟩⟩

theorem result_fits : Fits e tabAr outs D result 10 ident ⟨false, false⟩ := by
  refine ⟨.default, ident_moves _, .inr rfl, fun i => rfl, fun h => by simp [Kind.isProject] at h, fun i out al _ h2 => ?_⟩
  have h3 : al.2 = ident := by cases h2; rfl
  rw [h3]
  refine ⟨fun _ => ⟨newRows_fits e, fun h => absurd h (show ¬ (9 : Nat) = 5 by decide), fun _ => rfl, fun h => nope h⟩,
    fun h => nope h⟩

theorem result_sub : SubOK known nodeOf result := by
  have hE : SubOK known nodeOf fetchE := ⟨rfl, fun t o h => by cases h; exact .inl rfl, fun i => i.elim0⟩
  have hP : SubOK known nodeOf fetchP := ⟨rfl, fun t o h => by cases h; exact .inr rfl, fun i => i.elim0⟩
  have h1 : SubOK known nodeOf atom1 := ⟨rfl, fun t o h => (by cases h), fun _ => hE⟩
  have h2 : SubOK known nodeOf atom2 := ⟨rfl, fun t o h => (by cases h), fun _ => hE⟩
  have h3 : SubOK known nodeOf body := ⟨rfl, fun t o h => (by cases h), fun i => (by dsimp only; split <;> assumption)⟩
  have h4 : SubOK known nodeOf head := ⟨rfl, fun t o h => (by cases h), fun _ => h3⟩
  have h5 : SubOK known nodeOf old := ⟨rfl, fun t o h => (by cases h), fun _ => hP⟩
  have h6 : SubOK known nodeOf newRows := ⟨rfl, fun t o h => (by cases h), fun i => (by dsimp only; split <;> assumption)⟩
  exact ⟨rfl, fun t o h => (by cases h), fun _ => h6⟩

theorem executable {tab : Nat → List α → Prop} (ht : ∀ t r, tab t r → r.length = 2) : Executable e tabAr tab known outs := by
  have hr := result_sub
  have hn : SubOK known nodeOf newRows := hr.2.2 0
  have hh : SubOK known nodeOf head := hn.2.2 0
  have hb : SubOK known nodeOf body := hh.2.2 0
  refine ⟨by decide, ht, ⟨nodeOf, ?_⟩, D, ?_⟩
  · simp only [outs, List.forall_mem_cons, List.not_mem_nil, false_imp_iff, implies_true, and_true]
    exact ⟨hb, hh, hn, hr⟩
  · simp only [outs, List.forall_mem_cons, List.not_mem_nil, false_imp_iff, implies_true, and_true, Option.isSome_none, Option.isSome_some,
      Bool.false_eq_true, true_imp_iff, true_and]
    refine ⟨result_fits e, fun h => absurd h (show ¬ (10 : Nat) = 5 by decide), fun _ => rfl, fun h => nope h⟩

theorem fetchE_sem (tab : Nat → List α → Prop) (r : List α) : fetchE.Sem e.env tab r ↔ tab 0 r := permRows_ident _ r
theorem fetchP_sem (tab : Nat → List α → Prop) (r : List α) : fetchP.Sem e.env tab r ↔ tab 1 r := permRows_ident _ r

theorem body_sem (tab : Nat → List α → Prop) (a c b : α) : body.Sem e.env tab [a, c, b] ↔ tab 0 [a, b] ∧ tab 0 [b, c] := by
  have h1 : ∀ r, atom1.Sem e.env tab r ↔ tab 0 r := fun r =>
    ⟨fun ⟨_, h⟩ => (fetchE_sem e tab r).mp h, fun h => ⟨0, (fetchE_sem e tab r).mpr h⟩⟩
  have h2 : ∀ r, atom2.Sem e.env tab r ↔ tab 0 r := fun r =>
    ⟨fun ⟨_, h⟩ => (fetchE_sem e tab r).mp h, fun h => ⟨0, (fetchE_sem e tab r).mpr h⟩⟩
  constructor
  · rintro ⟨f, hf, h⟩
    simp only [List.map_cons, List.map_nil, List.cons.injEq, and_true] at hf
    obtain ⟨rfl, rfl, rfl⟩ := hf
    exact ⟨(h1 _).mp (h 0), (h2 _).mp (h 1)⟩
  · rintro ⟨x, y⟩
    refine ⟨fun n => if n = 0 then a else if n = 1 then b else c, rfl, fun i => ?_⟩
    match i with
    | ⟨0, _⟩ => exact (h1 _).mpr x
    | ⟨1, _⟩ => exact (h2 _).mpr y

/-- what the plan means: `P(a, c)` is new if `E(a, b)` and `E(b, c)` for some `b`, and `P(a, c)` is not known -/
theorem result_sem (tab : Nat → List α → Prop) (a c : α) :
    result.Sem e.env tab [a, c] ↔ (∃ b, tab 0 [a, b] ∧ tab 0 [b, c]) ∧ ¬ tab 1 [a, c] := by
  have ho : ∀ r, old.Sem e.env tab r ↔ tab 1 r := fun r =>
    ⟨fun ⟨_, h⟩ => (fetchP_sem e tab r).mp h, fun h => ⟨0, (fetchP_sem e tab r).mpr h⟩⟩
  have hh : ∀ a c, head.Sem e.env tab [a, c] ↔ ∃ b, tab 0 [a, b] ∧ tab 0 [b, c] := by
    intro a c
    constructor
    · rintro ⟨f, hf, _, h⟩
      simp only [List.map_cons, List.map_nil, List.cons.injEq, and_true] at hf
      obtain ⟨rfl, rfl⟩ := hf
      exact ⟨f 1, (body_sem e tab _ _ _).mp h⟩
    · rintro ⟨b, h⟩
      exact ⟨fun n => if n = 0 then a else if n = 1 then b else c, rfl, 0, (body_sem e tab _ _ _).mpr h⟩
  have hn : newRows.Sem e.env tab [a, c] ↔ (∃ b, tab 0 [a, b] ∧ tab 0 [b, c]) ∧ ¬ tab 1 [a, c] := by
    constructor
    · rintro ⟨f, hf, h⟩
      simp only [List.map_cons, List.map_nil, List.cons.injEq, and_true] at hf
      obtain ⟨rfl, rfl⟩ := hf
      exact ⟨(hh _ _).mp (h 0), fun hx => h 1 ((ho _).mpr hx)⟩
    · rintro ⟨x, y⟩
      refine ⟨fun n => if n = 0 then a else c, rfl, fun i => ?_⟩
      match i with
      | ⟨0, _⟩ => exact (hh _ _).mpr x
      | ⟨1, _⟩ => exact fun hx => y ((ho _).mp hx)
  exact ⟨fun ⟨_, h⟩ => hn.mp h, fun h => ⟨0, hn.mpr h⟩⟩

/-- a stored integer -/
noncomputable def v (n : Int64) : Stored := storedSto (.long n)

theorem v_inj {i j : Int64} (h : v i = v j) : i = j := by
  have := DV.eq_int ((stored_storage.sto_eq _ _).mp h)
  simp only [DV.intVal, Option.some.injEq] at this
  exact Int64.toInt_inj.mp this

/-- `E = {(1,2), (2,3), (3,4)}` -/
noncomputable def E : List (List Stored) := [[v 1, v 2], [v 2, v 3], [v 3, v 4]]
/-- `P = {(1,3)}` -/
noncomputable def P : List (List Stored) := [[v 1, v 3]]

/-- On a database with these tables the plan gives a table for `P` with the row (2,4) only: the
result of the node is a new table, whose rows are exactly those. -/
example (L : Fn.Lib) (d : Stored) : ∃ (m : Mgr Stored) (c : Content Stored) (res : List (Nat × Nat)) (next' : Nat) (m' : Mgr Stored) (c' : Content Stored)
    (k : Nat) (rows : List (List Stored)),
    History m c ∧ c 0 = some (2, E) ∧ c 1 = some (2, P) ∧
    executeDb (builtins L storedVal storedSto) outs d m 2 = some (res, next', m') ∧ History m' c' ∧
    c' 0 = c 0 ∧ c' 1 = c 1 ∧ res.lookup 10 = some k ∧ c' k = some (2, rows) ∧
    ∀ a c, [a, c] ∈ rows ↔ [a, c] = [v 2, v 4] := by
  have : Nonempty Stored := ⟨d⟩
  have hH1 := History.step (α := Stored) .new (.addSources
      (α := Stored) (id := 0) (o := ident) (n := 2) (rows := E) (Nat.zero_le _) rfl .default (ident_moves _) ⟨by omega, by simp [E]⟩)
  have hH2 := History.step hH1 (.addSources (id := 1) (o := ident) (n := 2) (rows := P) (Nat.zero_le _) (by simp [Content.set]) .default (ident_moves _) ⟨by omega, by simp [P]⟩)
  have hsem : ∀ a c, result.Sem (builtins L storedVal storedSto).env (fun t r => t = 0 ∧ r ∈ E ∨ t = 1 ∧ r ∈ P) [a, c] ↔ [a, c] = [v 2, v 4] := by
    intro a c
    have n23 : v 2 ≠ v 3 := fun h => absurd (v_inj h) (by decide)
    have n12 : v 2 ≠ v 1 := fun h => absurd (v_inj h) (by decide)
    have n34 : v 3 ≠ v 2 := fun h => absurd (v_inj h) (by decide)
    have n42 : v 4 ≠ v 2 := fun h => absurd (v_inj h) (by decide)
    have n41 : v 4 ≠ v 1 := fun h => absurd (v_inj h) (by decide)
    have n43 : v 4 ≠ v 3 := fun h => absurd (v_inj h) (by decide)
    have n31 : v 3 ≠ v 1 := fun h => absurd (v_inj h) (by decide)
    rw [result_sem]
    simp only [true_and, zero_ne_one, one_ne_zero, false_and, or_false, false_or, E, P, List.mem_cons, List.cons.injEq, and_true, List.not_mem_nil]
    constructor
    · rintro ⟨⟨b, h1, h2⟩, h3⟩
      rcases h1 with ⟨rfl, rfl⟩ | ⟨rfl, rfl⟩ | ⟨rfl, rfl⟩ <;> rcases h2 with ⟨h4, rfl⟩ | ⟨h4, rfl⟩ | ⟨h4, rfl⟩ <;> simp_all
    · rintro ⟨rfl, rfl⟩
      exact ⟨⟨v 3, by simp, by simp⟩, by simp [n12]⟩
  obtain ⟨res, next', m', c', e1, e2, e3, e4, e5⟩ := executeDb_rows_partial (builtins_ok L stored_storage) (outs := outs) (tabAr := tabAr)
    (tab := fun t r => t = 0 ∧ r ∈ E ∨ t = 1 ∧ r ∈ P) (known := known) (executable _ (by
      rintro t r (⟨-, h⟩ | ⟨-, h⟩)
      · simp only [E, List.mem_cons, List.not_mem_nil, or_false] at h
        rcases h with rfl | rfl | rfl <;> rfl
      · simp only [P, List.mem_cons, List.not_mem_nil, or_false] at h
        rcases h with rfl; rfl)) hH2 (next := 2) (by
      intro i hi
      simp only [Content.set]
      rw [if_neg (by omega), if_neg (by omega)]) (by
      rintro t (rfl | rfl)
      · exact ⟨rfl, E, by simp [Content.set, tabAr], by simp⟩
      · exact ⟨rfl, P, by simp [Content.set, tabAr], by simp⟩)
      (by
        simp only [outs, List.forall_mem_cons, List.not_mem_nil, false_imp_iff, implies_true, and_true, reduceCtorEq, Option.some.injEq, true_and]
        rintro p rfl
        exact ⟨.default, ident_moves _, by decide⟩) d
  have hex : result.Sem (builtins L storedVal storedSto).env (fun t r => t = 0 ∧ r ∈ E ∨ t = 1 ∧ r ∈ P) [v 2, v 4] := (hsem _ _).mpr rfl
  rcases e5 with ⟨-, o, ho, hn, hno⟩ | ⟨h1, -⟩
  · exfalso
    simp only [outs, List.mem_cons, List.not_mem_nil, or_false] at ho
    rcases ho with rfl | rfl | rfl | rfl
    · exact hno [v 1, v 3, v 2] ((body_sem _ _ _ _ _).mpr ⟨.inl ⟨rfl, by simp [E]⟩, .inl ⟨rfl, by simp [E]⟩⟩)
    · simp at hn
    · simp at hn
    · simp at hn
  · obtain ⟨k, k1, rows, k2, k3⟩ := h1 ⟨result, some ident, false⟩ (by simp [outs]) ident rfl ⟨_, hex⟩
    refine ⟨_, _, res, next', m', c', k, rows, hH2, by simp [Content.set], by simp [Content.set], e1, e2, e3 0 (by omega), e3 1 (by omega), k1, k2, fun a c => ?_⟩
    rw [← hsem, k3]
    constructor
    · exact fun h => ⟨_, h, ident_permute _⟩
    · rintro ⟨x, h, hx⟩
      rw [ident_permute] at hx
      cases hx
      exact h

end Example
end XPlan
end Verif
