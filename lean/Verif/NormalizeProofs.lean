import Verif.Source

/-!
# Normalization preserves the meaning of rules (C43)
-/

set_option linter.unusedSimpArgs false
set_option linter.unusedSectionVars false
set_option linter.unusedVariables false

namespace Verif

/-! ## Names -/

theorem nameCode_inj {s t : String} (h : nameCode s = nameCode t) : s = t := by
  have h1 := Encodable.encode_injective h
  have h2 : Function.Injective Char.toNat := fun a b hab => Char.toNat_inj.1 hab
  exact String.toList_inj.1 (List.map_injective_iff.2 h2 h1)

theorem named_inj {s t : String} (h : Variable.named s = Variable.named t) : s = t := by
  unfold Variable.named at h
  exact nameCode_inj (Variable.universal.inj h)

theorem repr_inj {a b : Nat} (h : toString a = toString b) : a = b := by
  have h' : (Nat.repr a).toList = (Nat.repr b).toList := congrArg String.toList h
  rw [Nat.toList_repr, Nat.toList_repr] at h'
  have := congrArg (fun l => Nat.ofDigitChars 10 l 0) h'
  simpa [Nat.ofDigitChars_toDigits] using this

theorem freshVar_inj {n : String} {a b : Nat} (h : freshVar n a = freshVar n b) : a = b := by
  have h1 := named_inj h
  have h2 := congrArg String.toList h1
  simp only [String.toList_append, List.append_cancel_left_eq] at h2
  exact repr_inj (String.toList_inj.1 h2)

theorem body_reserved (a : Nat) : (freshVar "BODY" a).Reserved := .inl ⟨a, .inl rfl⟩
theorem head_reserved (a : Nat) : (freshVar "HEAD" a).Reserved := .inl ⟨a, .inr rfl⟩

/-- Reserved names start with `_`. -/
theorem Variable.Reserved.underscore {v : Variable} (h : v.Reserved) : ∃ s : String, v = .named ("_" ++ s) := by
  rcases h with ⟨a, rfl | rfl⟩ | rfl | rfl
  · exact ⟨"BODY" ++ "_" ++ toString a, by rw [freshVar, String.append_assoc, String.append_assoc, String.append_assoc]⟩
  · exact ⟨"HEAD" ++ "_" ++ toString a, by rw [freshVar, String.append_assoc, String.append_assoc, String.append_assoc]⟩
  · exact ⟨"AGGREGATION_IN", by rw [aggIn]; congr 1⟩
  · exact ⟨"AGGREGATION_OUT", by rw [aggOut]; congr 1⟩

theorem body_ne_head (a b : Nat) : freshVar "BODY" a ≠ freshVar "HEAD" b := by
  intro h
  have h2 := congrArg String.toList (named_inj h)
  simp [String.toList_append] at h2

theorem fresh_ne_agg (a : Nat) : freshVar "BODY" a ≠ aggIn ∧ freshVar "BODY" a ≠ aggOut ∧ freshVar "HEAD" a ≠ aggIn ∧
    freshVar "HEAD" a ≠ aggOut := by
  refine ⟨?_, ?_, ?_, ?_⟩ <;>
  · intro h
    have h2 := congrArg String.toList (named_inj h)
    simp [String.toList_append] at h2

theorem aggIn_ne_aggOut : aggIn ≠ aggOut := by
  intro h
  have h2 := congrArg String.toList (named_inj h)
  simp at h2

theorem aggIn_reserved : aggIn.Reserved := .inr (.inl rfl)
theorem aggOut_reserved : aggOut.Reserved := .inr (.inr rfl)

/-! ## Atoms -/

/-- a variable that was generated between two states of the generator -/
def BodyFresh (g g' : Nat) (v : Variable) : Prop := ∃ k, g < k ∧ k ≤ g' ∧ v = freshVar "BODY" k

theorem BodyFresh.reserved {g g' : Nat} {v : Variable} (h : BodyFresh g g' v) : v.Reserved := by
  obtain ⟨k, _, _, rfl⟩ := h; exact body_reserved _

theorem BodyFresh.mono {g g' h h' : Nat} {v : Variable} (hv : BodyFresh g g' v) (h1 : h ≤ g) (h2 : g' ≤ h') :
    BodyFresh h h' v := by
  obtain ⟨k, a, b, rfl⟩ := hv
  exact ⟨k, by omega, by omega, rfl⟩

theorem BodyFresh.disjoint {g g' h h' : Nat} {v : Variable} (hv : BodyFresh g g' v) (hw : BodyFresh h h' v) (hle : g' ≤ h) :
    False := by
  obtain ⟨k, a, b, rfl⟩ := hv
  obtain ⟨k', a', b', e⟩ := hw
  have := freshVar_inj e
  omega

section atoms
variable {α : Type} [DecidableEq α] [Dom α]

theorem eval_assign (σ : Variable → α) (f : Variable) (e : Operation α) :
    (Operation.equal (.var f) e).eval σ = some Dom.tru ↔ e.eval σ = some (σ f) := by
  rw [Operation.eval_equal_tru]
  simp [Operation.eval, eq_comm]

theorem normBodyTerms_gen (ts : List (BTerm α)) (used : List Variable) (g : Nat) : g ≤ (normBodyTerms ts used g).2.2 := by
  induction ts generalizing used g with
  | nil => exact le_rfl
  | cons t ts ih =>
    cases t with
    | var v =>
      rw [normBodyTerms]
      split
      · exact le_trans (Nat.le_succ g) (ih _ _)
      · exact ih _ _
    | anon => exact le_trans (Nat.le_succ g) (ih _ _)
    | const a => exact le_trans (Nat.le_succ g) (ih _ _)
    | oper o => exact le_trans (Nat.le_succ g) (ih _ _)

theorem normBodyTerms_length (ts : List (BTerm α)) (used : List Variable) (g : Nat) :
    (normBodyTerms ts used g).1.length = ts.length := by
  induction ts generalizing used g with
  | nil => rfl
  | cons t ts ih =>
    cases t with
    | var v =>
      rw [normBodyTerms]
      split <;> simp [ih]
    | anon => simp [normBodyTerms, ih]
    | const a => simp [normBodyTerms, ih]
    | oper o => simp [normBodyTerms, ih]

theorem bodyFresh_first (ts : List (BTerm α)) (used : List Variable) (g : Nat) :
    BodyFresh g (normBodyTerms ts used (g + 1)).2.2 (freshVar "BODY" (g + 1)) :=
  ⟨g + 1, by omega, normBodyTerms_gen ts used (g + 1), rfl⟩

theorem normBodyTerms_vars (ts : List (BTerm α)) (used : List Variable) (g : Nat) {v : Variable}
    (h : v ∈ (normBodyTerms ts used g).1) :
    (.var v ∈ ts ∧ v ∉ used) ∨ BodyFresh g (normBodyTerms ts used g).2.2 v := by
  induction ts generalizing used g with
  | nil => cases h
  | cons t ts ih =>
    have key : ∀ used', v ∈ freshVar "BODY" (g + 1) :: (normBodyTerms ts used' (g + 1)).1 →
        (.var v ∈ t :: ts ∧ v ∉ used') ∨ BodyFresh g (normBodyTerms ts used' (g + 1)).2.2 v := by
      intro used' h
      rcases List.mem_cons.1 h with rfl | h
      · exact .inr (bodyFresh_first ts used' g)
      · rcases ih used' (g + 1) h with h | h
        · exact .inl ⟨List.mem_cons_of_mem _ h.1, h.2⟩
        · exact .inr (h.mono (by omega) le_rfl)
    cases t with
    | var w =>
      rw [normBodyTerms] at h ⊢
      by_cases hw : w ∈ used
      · rw [if_pos hw] at h ⊢
        exact key used h
      · rw [if_neg hw] at h ⊢
        rcases List.mem_cons.1 h with rfl | h
        · exact .inl ⟨List.mem_cons_self, hw⟩
        · rcases ih (w :: used) g h with h | h
          · exact .inl ⟨List.mem_cons_of_mem _ h.1, fun hc => h.2 (List.mem_cons_of_mem _ hc)⟩
          · exact .inr h
    | anon => exact key used h
    | const a => exact key used h
    | oper o => exact key used h

theorem normBodyTerms_has (ts : List (BTerm α)) (used : List Variable) (g : Nat) {v : Variable} (h : .var v ∈ ts) :
    v ∈ used ∨ v ∈ (normBodyTerms ts used g).1 := by
  induction ts generalizing used g with
  | nil => cases h
  | cons t ts ih =>
    have key : .var v ∈ ts → ∀ f, v ∈ used ∨ v ∈ f :: (normBodyTerms ts used (g + 1)).1 := by
      intro h f
      exact (ih used (g + 1) h).imp_right (List.mem_cons_of_mem _)
    cases t with
    | var w =>
      rw [normBodyTerms]
      by_cases hw : w ∈ used
      · rw [if_pos hw]
        rcases List.mem_cons.1 h with h | h
        · cases h; exact .inl hw
        · exact key h _
      · rw [if_neg hw]
        rcases List.mem_cons.1 h with h | h
        · cases h; exact .inr List.mem_cons_self
        · rcases ih (w :: used) g h with h | h
          · rcases List.mem_cons.1 h with rfl | h
            · exact .inr List.mem_cons_self
            · exact .inl h
          · exact .inr (List.mem_cons_of_mem _ h)
    | anon => exact key (by simpa using h) _
    | const a => exact key (by simpa using h) _
    | oper o => exact key (by simpa using h) _

/-- The form of the new operations. -/
theorem normBodyTerms_ops (ts : List (BTerm α)) (used : List Variable) (g : Nat) {o : Operation α}
    (h : o ∈ (normBodyTerms ts used g).2.1) : ∃ f e, o = .equal (.var f) e ∧
      BodyFresh g (normBodyTerms ts used g).2.2 f ∧ f ∈ (normBodyTerms ts used g).1 ∧
      ((∃ v, e = .var v ∧ .var v ∈ ts) ∨ (∃ a, e = .const a) ∨ .oper e ∈ ts) := by
  induction ts generalizing used g with
  | nil => cases h
  | cons t ts ih =>
    have key : o ∈ (normBodyTerms ts used (g + 1)).2.1 → ∃ f e, o = .equal (.var f) e ∧
        BodyFresh g (normBodyTerms ts used (g + 1)).2.2 f ∧
        f ∈ freshVar "BODY" (g + 1) :: (normBodyTerms ts used (g + 1)).1 ∧
        ((∃ v, e = .var v ∧ .var v ∈ t :: ts) ∨ (∃ a, e = .const a) ∨ .oper e ∈ t :: ts) := by
      intro h
      obtain ⟨f, e, h1, h2, h3, h4⟩ := ih used (g + 1) h
      exact ⟨f, e, h1, h2.mono (by omega) le_rfl, List.mem_cons_of_mem _ h3,
        h4.imp (fun ⟨v, a, b⟩ => ⟨v, a, List.mem_cons_of_mem _ b⟩) (Or.imp_right (List.mem_cons_of_mem _))⟩
    cases t with
    | var w =>
      rw [normBodyTerms] at h ⊢
      by_cases hw : w ∈ used
      · rw [if_pos hw] at h ⊢
        rcases List.mem_cons.1 h with rfl | h
        · exact ⟨_, _, rfl, bodyFresh_first ts used g, List.mem_cons_self, .inl ⟨w, rfl, List.mem_cons_self⟩⟩
        · exact key h
      · rw [if_neg hw] at h ⊢
        obtain ⟨f, e, h1, h2, h3, h4⟩ := ih (w :: used) g h
        exact ⟨f, e, h1, h2, List.mem_cons_of_mem _ h3,
          h4.imp (fun ⟨v, a, b⟩ => ⟨v, a, List.mem_cons_of_mem _ b⟩) (Or.imp_right (List.mem_cons_of_mem _))⟩
    | anon => exact key h
    | const a =>
      rcases List.mem_cons.1 h with rfl | h
      · exact ⟨_, _, rfl, bodyFresh_first ts used g, List.mem_cons_self, .inr (.inl ⟨a, rfl⟩)⟩
      · exact key h
    | oper e =>
      rcases List.mem_cons.1 h with rfl | h
      · exact ⟨_, _, rfl, bodyFresh_first ts used g, List.mem_cons_self, .inr (.inr List.mem_cons_self)⟩
      · exact key h

theorem normBodyTerms_nodup (ts : List (BTerm α)) (used : List Variable) (g : Nat)
    (hu : ∀ v, .var v ∈ ts → ¬ v.Reserved) : (normBodyTerms ts used g).1.Nodup := by
  induction ts generalizing used g with
  | nil => exact List.nodup_nil
  | cons t ts ih =>
    have hu' : ∀ v, .var v ∈ ts → ¬ v.Reserved := fun v hv => hu v (List.mem_cons_of_mem _ hv)
    have key : ∀ used', (freshVar "BODY" (g + 1) :: (normBodyTerms ts used' (g + 1)).1).Nodup := by
      intro used'
      refine List.nodup_cons.2 ⟨fun hc => ?_, ih used' (g + 1) hu'⟩
      rcases normBodyTerms_vars ts used' (g + 1) hc with h | ⟨k, h1, _, h3⟩
      · exact hu' _ h.1 (body_reserved _)
      · have := freshVar_inj h3; omega
    cases t with
    | var w =>
      rw [normBodyTerms]
      split
      · exact key used
      · refine List.nodup_cons.2 ⟨fun hc => ?_, ih (w :: used) g hu'⟩
        rcases normBodyTerms_vars ts (w :: used) g hc with h | h
        · exact h.2 List.mem_cons_self
        · exact hu w List.mem_cons_self h.reserved
    | anon => exact key used
    | const a => exact key used
    | oper o => exact key used

/-- If the new operations are true, the values of the variables match the terms. -/
theorem normBodyTerms_sound (ts : List (BTerm α)) (used : List Variable) (g : Nat) (σ : Variable → α)
    (h : ∀ o ∈ (normBodyTerms ts used g).2.1, o.eval σ = some Dom.tru) :
    List.Forall₂ (BTerm.Matches σ) ts ((normBodyTerms ts used g).1.map σ) := by
  induction ts generalizing used g with
  | nil => exact .nil
  | cons t ts ih =>
    cases t with
    | var w =>
      rw [normBodyTerms] at h ⊢
      by_cases hw : w ∈ used
      · rw [if_pos hw] at h ⊢
        refine .cons ?_ (ih _ _ fun o ho => h o (List.mem_cons_of_mem _ ho))
        have := (eval_assign σ _ _).1 (h _ List.mem_cons_self)
        exact Option.some.inj this
      · rw [if_neg hw] at h ⊢
        exact .cons rfl (ih _ _ h)
    | anon => exact .cons trivial (ih _ _ h)
    | const a =>
      refine .cons ?_ (ih _ _ fun o ho => h o (List.mem_cons_of_mem _ ho))
      exact Option.some.inj ((eval_assign σ _ _).1 (h _ List.mem_cons_self))
    | oper e =>
      refine .cons ?_ (ih _ _ fun o ho => h o (List.mem_cons_of_mem _ ho))
      exact (eval_assign σ _ _).1 (h _ List.mem_cons_self)

/-- The terms only use names that can be written. -/
def UserTerms (ts : List (BTerm α)) : Prop :=
  (∀ v, .var v ∈ ts → ¬ v.Reserved) ∧ ∀ o, .oper o ∈ ts → ∀ v ∈ o.vars, ¬ v.Reserved

theorem UserTerms.tail {t : BTerm α} {ts : List (BTerm α)} (h : UserTerms (t :: ts)) : UserTerms ts :=
  ⟨fun v hv => h.1 v (List.mem_cons_of_mem _ hv), fun o ho => h.2 o (List.mem_cons_of_mem _ ho)⟩

theorem normBodyTerms_opVars {ts : List (BTerm α)} (hu : UserTerms ts) {used : List Variable} {g : Nat} {o : Operation α}
    (h : o ∈ (normBodyTerms ts used g).2.1) {v : Variable} (hv : v ∈ o.vars) :
    ¬ v.Reserved ∨ BodyFresh g (normBodyTerms ts used g).2.2 v := by
  obtain ⟨f, e, rfl, h2, _, h4⟩ := normBodyTerms_ops ts used g h
  rcases List.mem_append.1 hv with hv | hv
  · obtain rfl : v = f := by simpa [Operation.vars] using hv
    exact .inr h2
  · left
    rcases h4 with ⟨w, rfl, hw⟩ | ⟨a, rfl⟩ | h4
    · obtain rfl : v = w := by simpa [Operation.vars] using hv
      exact hu.1 _ hw
    · simp [Operation.vars] at hv
    · exact hu.2 _ h4 v hv

/-- A match for the terms gives values for the new variables. -/
theorem normBodyTerms_complete (ts : List (BTerm α)) (hu : UserTerms ts) (used : List Variable) (g : Nat) (σ : Variable → α)
    (row : List α) (h : List.Forall₂ (BTerm.Matches σ) ts row) :
    ∃ σ' : Variable → α, (∀ v, ¬ BodyFresh g (normBodyTerms ts used g).2.2 v → σ' v = σ v) ∧
      (normBodyTerms ts used g).1.map σ' = row ∧ ∀ o ∈ (normBodyTerms ts used g).2.1, o.eval σ' = some Dom.tru := by
  induction ts generalizing used g row with
  | nil =>
    cases h
    exact ⟨σ, fun _ _ => rfl, rfl, by simp [normBodyTerms]⟩
  | cons t ts ih =>
    cases h with
    | @cons _ b _ row' hb hrow =>
    -- a new variable for the first term
    have key : ∀ used', ∃ σ' : Variable → α,
        (∀ v, ¬ BodyFresh g (normBodyTerms ts used' (g + 1)).2.2 v → σ' v = σ v) ∧
        σ' (freshVar "BODY" (g + 1)) = b ∧ (normBodyTerms ts used' (g + 1)).1.map σ' = row' ∧
        ∀ o ∈ (normBodyTerms ts used' (g + 1)).2.1, o.eval σ' = some Dom.tru := by
      intro used'
      obtain ⟨σ1, s1, s2, s3⟩ := ih hu.tail used' (g + 1) row' hrow
      have hne : ∀ v, (¬ v.Reserved ∨ BodyFresh (g + 1) (normBodyTerms ts used' (g + 1)).2.2 v) →
          (if v = freshVar "BODY" (g + 1) then b else σ1 v) = σ1 v := by
        intro v hv
        refine if_neg ?_
        rintro rfl
        rcases hv with hv | ⟨k, h1, _, h3⟩
        · exact hv (body_reserved _)
        · have := freshVar_inj h3; omega
      refine ⟨fun v => if v = freshVar "BODY" (g + 1) then b else σ1 v, ?_, if_pos rfl, ?_, ?_⟩
      · intro v hv
        have : v ≠ freshVar "BODY" (g + 1) := by rintro rfl; exact hv (bodyFresh_first ts used' g)
        dsimp only
        rw [if_neg this]
        exact s1 v fun hc => hv (hc.mono (by omega) le_rfl)
      · rw [← s2]
        refine List.map_congr_left fun v hv => hne v ?_
        exact (normBodyTerms_vars ts used' (g + 1) hv).imp_left fun h => hu.tail.1 v h.1
      · intro o ho
        rw [← s3 o ho]
        exact Operation.eval_congr o fun v hv => hne v (normBodyTerms_opVars hu.tail ho hv)
    have userEq : ∀ used' (σ' : Variable → α),
        (∀ v, ¬ BodyFresh g (normBodyTerms ts used' (g + 1)).2.2 v → σ' v = σ v) → ∀ v, ¬ v.Reserved → σ' v = σ v :=
      fun used' σ' hs v hv => hs v fun hc => hv hc.reserved
    cases t with
    | var w =>
      rw [normBodyTerms]
      by_cases hw : w ∈ used
      · rw [if_pos hw]
        obtain ⟨σ', k1, k2, k3, k4⟩ := key used
        refine ⟨σ', k1, by simp [k2, k3], ?_⟩
        intro o ho
        rcases List.mem_cons.1 ho with rfl | ho
        · rw [eval_assign, k2, Operation.eval, userEq used σ' k1 w (hu.1 w List.mem_cons_self)]
          exact congrArg some hb
        · exact k4 o ho
      · rw [if_neg hw]
        obtain ⟨σ1, s1, s2, s3⟩ := ih hu.tail (w :: used) g row' hrow
        refine ⟨σ1, s1, ?_, s3⟩
        rw [List.map_cons, s2, s1 w fun hc => hu.1 w List.mem_cons_self hc.reserved]
        rw [show σ w = b from hb]
    | anon =>
      obtain ⟨σ', k1, k2, k3, k4⟩ := key used
      exact ⟨σ', k1, by simp [normBodyTerms, k2, k3], k4⟩
    | const a =>
      obtain ⟨σ', k1, k2, k3, k4⟩ := key used
      refine ⟨σ', k1, by simp [normBodyTerms, k2, k3], ?_⟩
      intro o ho
      rcases List.mem_cons.1 ho with rfl | ho
      · rw [eval_assign, k2, Operation.eval]
        exact congrArg some hb
      · exact k4 o ho
    | oper e =>
      obtain ⟨σ', k1, k2, k3, k4⟩ := key used
      refine ⟨σ', k1, by simp [normBodyTerms, k2, k3], ?_⟩
      intro o ho
      rcases List.mem_cons.1 ho with rfl | ho
      · rw [eval_assign, k2, Operation.eval_congr e fun v hv => userEq used σ' k1 v (hu.2 e List.mem_cons_self v hv)]
        exact hb
      · exact k4 o ho

/-- Terms all of whose expressions are defined match some row. -/
theorem exists_match (ts : List (BTerm α)) (σ : Variable → α) (h : ∀ o, .oper o ∈ ts → o.eval σ ≠ none) :
    ∃ row, List.Forall₂ (BTerm.Matches σ) ts row := by
  induction ts with
  | nil => exact ⟨[], .nil⟩
  | cons t ts ih =>
    obtain ⟨row, hr⟩ := ih fun o ho => h o (List.mem_cons_of_mem _ ho)
    cases t with
    | var v => exact ⟨σ v :: row, .cons rfl hr⟩
    | anon => exact ⟨Dom.tru :: row, .cons trivial hr⟩
    | const a => exact ⟨a :: row, .cons rfl hr⟩
    | oper o =>
      obtain ⟨b, hb⟩ := Option.ne_none_iff_exists'.1 (h o List.mem_cons_self)
      exact ⟨b :: row, .cons hb hr⟩

/-! ## Lists of atoms -/

/-- The atom occurs in the list, and is normalized when the generator is in state `k`. -/
def AtomAt : List (SAtom α) → Nat → SAtom α → Nat → Prop
  | [], _, _, _ => False
  | b :: bs, g, a, k => (a = b ∧ k = g) ∨ AtomAt bs (normBodyTerms b.terms [] g).2.2 a k

/-- the state of the generator after an atom -/
abbrev endGen (a : SAtom α) (k : Nat) : Nat := (normBodyTerms a.terms [] k).2.2

theorem AtomAt.mem {as : List (SAtom α)} {g : Nat} {a : SAtom α} {k : Nat} (h : AtomAt as g a k) : a ∈ as := by
  induction as generalizing g with
  | nil => exact h.elim
  | cons b bs ih =>
    rcases h with ⟨rfl, _⟩ | h
    · exact List.mem_cons_self
    · exact List.mem_cons_of_mem _ (ih h)

theorem exists_atomAt {as : List (SAtom α)} (g : Nat) {a : SAtom α} (h : a ∈ as) : ∃ k, AtomAt as g a k := by
  induction as generalizing g with
  | nil => cases h
  | cons b bs ih =>
    rcases List.mem_cons.1 h with rfl | h
    · exact ⟨g, .inl ⟨rfl, rfl⟩⟩
    · obtain ⟨k, hk⟩ := ih (normBodyTerms b.terms [] g).2.2 h
      exact ⟨k, .inr hk⟩

theorem normBodyAtoms_gen (as : List (SAtom α)) (g : Nat) : g ≤ (normBodyAtoms as g).2.2 := by
  induction as generalizing g with
  | nil => exact le_rfl
  | cons b bs ih => exact le_trans (normBodyTerms_gen b.terms [] g) (ih _)

theorem AtomAt.range {as : List (SAtom α)} {g : Nat} {a : SAtom α} {k : Nat} (h : AtomAt as g a k) :
    g ≤ k ∧ endGen a k ≤ (normBodyAtoms as g).2.2 := by
  induction as generalizing g with
  | nil => exact h.elim
  | cons b bs ih =>
    rcases h with ⟨rfl, rfl⟩ | h
    · exact ⟨le_rfl, normBodyAtoms_gen bs _⟩
    · exact ⟨le_trans (normBodyTerms_gen b.terms [] g) (ih h).1, (ih h).2⟩

theorem AtomAt.separate {as : List (SAtom α)} {g : Nat} {R : SAtom α → SAtom α → Prop} (hR : as.Pairwise R) {a b : SAtom α}
    {k l : Nat} (ha : AtomAt as g a k) (hb : AtomAt as g b l) :
    (a = b ∧ k = l) ∨ (R a b ∧ endGen a k ≤ l) ∨ (R b a ∧ endGen b l ≤ k) := by
  induction as generalizing g with
  | nil => exact ha.elim
  | cons c cs ih =>
    obtain ⟨h1, h2⟩ := List.pairwise_cons.1 hR
    rcases ha with ⟨rfl, rfl⟩ | ha <;> rcases hb with ⟨rfl, rfl⟩ | hb
    · exact .inl ⟨rfl, rfl⟩
    · exact .inr (.inl ⟨h1 _ hb.mem, hb.range.1⟩)
    · exact .inr (.inr ⟨h1 _ ha.mem, ha.range.1⟩)
    · exact ih h2 ha hb

theorem mem_normBodyAtoms (as : List (SAtom α)) (g : Nat) (x : BodyAtom) : x ∈ (normBodyAtoms as g).1 ↔
    ∃ a k, AtomAt as g a k ∧ x = ⟨a.pred, (normBodyTerms a.terms [] k).1⟩ := by
  induction as generalizing g with
  | nil => simp [normBodyAtoms, AtomAt]
  | cons b bs ih =>
    simp only [normBodyAtoms, List.mem_cons, ih, AtomAt]
    constructor
    · rintro (h | ⟨a, k, h1, h2⟩)
      · exact ⟨b, g, .inl ⟨rfl, rfl⟩, h⟩
      · exact ⟨a, k, .inr h1, h2⟩
    · rintro ⟨a, k, ⟨rfl, rfl⟩ | h1, h2⟩
      · exact .inl h2
      · exact .inr ⟨a, k, h1, h2⟩

theorem mem_normBodyAtoms_ops (as : List (SAtom α)) (g : Nat) (o : Operation α) : o ∈ (normBodyAtoms as g).2.1 ↔
    ∃ a k, AtomAt as g a k ∧ o ∈ (normBodyTerms a.terms [] k).2.1 := by
  induction as generalizing g with
  | nil => simp [normBodyAtoms, AtomAt]
  | cons b bs ih =>
    simp only [normBodyAtoms, List.mem_append, ih, AtomAt]
    constructor
    · rintro (h | ⟨a, k, h1, h2⟩)
      · exact ⟨b, g, .inl ⟨rfl, rfl⟩, h⟩
      · exact ⟨a, k, .inr h1, h2⟩
    · rintro ⟨a, k, ⟨rfl, rfl⟩ | h1, h2⟩
      · exact .inl h2
      · exact .inr ⟨a, k, h1, h2⟩

/-- Matches for all atoms give values for all new variables. -/
theorem normBodyAtoms_complete (as : List (SAtom α)) (hu : ∀ a ∈ as, UserTerms a.terms) (g : Nat) (σ : Variable → α)
    (Q : SAtom α → List α → Prop) (h : ∀ a ∈ as, ∃ row, Q a row ∧ a.Matches σ row) :
    ∃ σ' : Variable → α, (∀ v, ¬ BodyFresh g (normBodyAtoms as g).2.2 v → σ' v = σ v) ∧
      (∀ a k, AtomAt as g a k → Q a ((normBodyTerms a.terms [] k).1.map σ')) ∧
      ∀ o ∈ (normBodyAtoms as g).2.1, o.eval σ' = some Dom.tru := by
  induction as generalizing g σ with
  | nil => exact ⟨σ, fun _ _ => rfl, fun _ _ h => h.elim, by simp [normBodyAtoms]⟩
  | cons b bs ih =>
    obtain ⟨row, hq, hm⟩ := h b List.mem_cons_self
    obtain ⟨σ1, s1, s2, s3⟩ := normBodyTerms_complete b.terms (hu b List.mem_cons_self) [] g σ row hm
    have user1 : ∀ v, ¬ v.Reserved → σ1 v = σ v := fun v hv => s1 v fun hc => hv hc.reserved
    have hmatch : ∀ a ∈ bs, ∃ row, Q a row ∧ a.Matches σ1 row := by
      intro a ha
      obtain ⟨row, hq, hm⟩ := h a (List.mem_cons_of_mem _ ha)
      refine ⟨row, hq, ?_⟩
      have hua := hu a (List.mem_cons_of_mem _ ha)
      have aux : ∀ ts : List (BTerm α), UserTerms ts → ∀ row, List.Forall₂ (BTerm.Matches σ) ts row →
          List.Forall₂ (BTerm.Matches σ1) ts row := by
        intro ts hts row hr
        induction hr with
        | nil => exact .nil
        | @cons t b ts row ht _ ih =>
          refine .cons ?_ (ih hts.tail)
          cases t with
          | var v => exact (user1 v (hts.1 v List.mem_cons_self)).trans ht
          | anon => trivial
          | const a => exact ht
          | oper o =>
            show o.eval σ1 = _
            rw [Operation.eval_congr o fun v hv => user1 v (hts.2 o List.mem_cons_self v hv)]; exact ht
      exact aux _ hua _ hm
    obtain ⟨σ2, t1, t2, t3⟩ := ih (fun a ha => hu a (List.mem_cons_of_mem _ ha)) (normBodyTerms b.terms [] g).2.2 σ1 hmatch
    -- the new variables of the first atom do not change again
    have keep : ∀ v, (¬ v.Reserved ∨ BodyFresh g (normBodyTerms b.terms [] g).2.2 v) → σ2 v = σ1 v := by
      rintro v (hv | hv)
      · exact t1 v fun hc => hv hc.reserved
      · exact t1 v fun hc => hv.disjoint hc le_rfl
    have hub := hu b List.mem_cons_self
    refine ⟨σ2, ?_, ?_, ?_⟩
    · intro v hv
      rw [t1 v fun hc => hv (hc.mono (normBodyTerms_gen _ _ _) le_rfl),
        s1 v fun hc => hv (hc.mono le_rfl (normBodyAtoms_gen bs _))]
    · rintro a k (⟨rfl, rfl⟩ | hk)
      · have : (normBodyTerms a.terms [] k).1.map σ2 = row := by
          rw [← s2]
          exact List.map_congr_left fun v hv => keep v
            ((normBodyTerms_vars a.terms [] k hv).imp_left fun h => hub.1 v h.1)
        rw [this]; exact hq
      · exact t2 a k hk
    · intro o ho
      rcases List.mem_append.1 ho with ho | ho
      · rw [Operation.eval_congr o fun v hv => keep v (normBodyTerms_opVars hub ho hv)]
        exact s3 o ho
      · exact t3 o ho

end atoms

/-! ## Terms of the head -/

section headTerms
variable {α : Type} [DecidableEq α] [Dom α]

namespace HTerm

mutual
theorem norm_eval (σ : Variable → α) : ∀ t : HTerm α, t.norm.eval σ = t.value σ (σ aggOut)
  | .var v => rfl
  | .const a => rfl
  | .equal l r => by simp only [norm, Operation.eval, value, norm_eval σ l, norm_eval σ r]
  | .op k ts => by simp only [norm, Operation.eval, value, normList_eval σ ts]
  | .agg _ _ _ => rfl
theorem normList_eval (σ : Variable → α) : ∀ ts : List (HTerm α),
    Operation.evalList σ (normList ts) = valueList σ (σ aggOut) ts
  | [] => rfl
  | t :: ts => by simp only [normList, Operation.evalList, valueList, norm_eval σ t, normList_eval σ ts]
end

mutual
theorem value_congr {σ τ : Variable → α} (x : α) : ∀ t : HTerm α, (∀ v ∈ t.outerVars, σ v = τ v) → t.value σ x = t.value τ x
  | .var v, h => by simp only [value, h v (by simp [outerVars])]
  | .const a, _ => rfl
  | .equal l r, h => by
    simp only [value, value_congr x l fun v hv => h v (List.mem_append_left _ hv),
      value_congr x r fun v hv => h v (List.mem_append_right _ hv)]
  | .op k ts, h => by simp only [value, valueList_congr x ts h]
  | .agg _ _ _, _ => rfl
theorem valueList_congr {σ τ : Variable → α} (x : α) : ∀ ts : List (HTerm α), (∀ v ∈ outerVarsList ts, σ v = τ v) →
    valueList σ x ts = valueList τ x ts
  | [], _ => rfl
  | t :: ts, h => by
    simp only [valueList, value_congr x t fun v hv => h v (List.mem_append_left _ hv),
      valueList_congr x ts fun v hv => h v (List.mem_append_right _ hv)]
end

mutual
theorem value_indep (σ : Variable → α) (x y : α) : ∀ t : HTerm α, t.aggCount = 0 → t.value σ x = t.value σ y
  | .var v, _ => rfl
  | .const a, _ => rfl
  | .equal l r, h => by
    simp only [aggCount, Nat.add_eq_zero_iff] at h
    simp only [value, value_indep σ x y l h.1, value_indep σ x y r h.2]
  | .op k ts, h => by simp only [value, valueList_indep σ x y ts h]
  | .agg _ _ _, h => by simp [aggCount] at h
theorem valueList_indep (σ : Variable → α) (x y : α) : ∀ ts : List (HTerm α), aggCountList ts = 0 →
    valueList σ x ts = valueList σ y ts
  | [], _ => rfl
  | t :: ts, h => by
    simp only [aggCountList, Nat.add_eq_zero_iff] at h
    simp only [valueList, value_indep σ x y t h.1, valueList_indep σ x y ts h.2]
end

mutual
theorem mem_norm_vars (w : Variable) : ∀ t : HTerm α, w ∈ t.norm.vars ↔ w ∈ t.outerVars ∨ (w = aggOut ∧ t.aggCount ≠ 0)
  | .var v => by simp [norm, Operation.vars, outerVars, aggCount]
  | .const a => by simp [norm, Operation.vars, outerVars, aggCount]
  | .equal l r => by
    simp only [norm, Operation.vars, outerVars, aggCount, List.mem_append, mem_norm_vars w l, mem_norm_vars w r]
    constructor
    · rintro ((h | ⟨h, h'⟩) | (h | ⟨h, h'⟩))
      · exact .inl (.inl h)
      · exact .inr ⟨h, by omega⟩
      · exact .inl (.inr h)
      · exact .inr ⟨h, by omega⟩
    · rintro ((h | h) | ⟨h, h'⟩)
      · exact .inl (.inl h)
      · exact .inr (.inl h)
      · by_cases hl : l.aggCount = 0
        · exact .inr (.inr ⟨h, by omega⟩)
        · exact .inl (.inr ⟨h, hl⟩)
  | .op k ts => by simp only [norm, Operation.vars, outerVars, aggCount, mem_normList_vars w ts]
  | .agg _ _ _ => by simp [norm, Operation.vars, outerVars, aggCount]
theorem mem_normList_vars (w : Variable) : ∀ ts : List (HTerm α), w ∈ Operation.varsList (normList ts) ↔
    w ∈ outerVarsList ts ∨ (w = aggOut ∧ aggCountList ts ≠ 0)
  | [] => by simp [normList, Operation.varsList, outerVarsList, aggCountList]
  | t :: ts => by
    simp only [normList, Operation.varsList, outerVarsList, aggCountList, List.mem_append, mem_norm_vars w t,
      mem_normList_vars w ts]
    constructor
    · rintro ((h | ⟨h, h'⟩) | (h | ⟨h, h'⟩))
      · exact .inl (.inl h)
      · exact .inr ⟨h, by omega⟩
      · exact .inl (.inr h)
      · exact .inr ⟨h, by omega⟩
    · rintro ((h | h) | ⟨h, h'⟩)
      · exact .inl (.inl h)
      · exact .inr (.inl h)
      · by_cases hl : t.aggCount = 0
        · exact .inr (.inr ⟨h, by omega⟩)
        · exact .inl (.inr ⟨h, hl⟩)
end

mutual
theorem agg?_none : ∀ t : HTerm α, t.agg? = none ↔ t.aggCount = 0
  | .var v => by simp [agg?, aggCount]
  | .const a => by simp [agg?, aggCount]
  | .equal l r => by
    rw [agg?, aggCount, Nat.add_eq_zero_iff, ← agg?_none l, ← agg?_none r]
    cases l.agg? <;> simp
  | .op k ts => by rw [agg?, aggCount]; exact aggList?_none ts
  | .agg _ _ _ => by simp [agg?, aggCount]
theorem aggList?_none : ∀ ts : List (HTerm α), aggList? ts = none ↔ aggCountList ts = 0
  | [] => by simp [aggList?, aggCountList]
  | t :: ts => by
    rw [aggList?, aggCountList, Nat.add_eq_zero_iff, ← agg?_none t, ← aggList?_none ts]
    cases t.agg? <;> simp
end

mutual
theorem outerVars_sub {w : Variable} : ∀ t : HTerm α, w ∈ t.outerVars → w ∈ t.vars
  | .var v, h => h
  | .const a, h => h
  | .equal l r, h => by
    rcases List.mem_append.1 h with h | h
    · exact List.mem_append_left _ (outerVars_sub l h)
    · exact List.mem_append_right _ (outerVars_sub r h)
  | .op k ts, h => outerVarsList_sub ts h
  | .agg _ _ _, h => by simp [outerVars] at h
theorem outerVarsList_sub {w : Variable} : ∀ ts : List (HTerm α), w ∈ outerVarsList ts → w ∈ varsList ts
  | [], h => h
  | t :: ts, h => by
    rcases List.mem_append.1 h with h | h
    · exact List.mem_append_left _ (outerVars_sub t h)
    · exact List.mem_append_right _ (outerVarsList_sub ts h)
end

mutual
theorem agg?_vars {w : Variable} {k : Nat} {i : Operation α} {d : List Variable} : ∀ t : HTerm α, t.agg? = some (k, i, d) →
    w ∈ i.vars ++ d → w ∈ t.vars
  | .var v, h, _ => by simp [agg?] at h
  | .const a, h, _ => by simp [agg?] at h
  | .equal l r, h, hw => by
    rw [agg?] at h
    rcases hl : l.agg? with _ | x
    · rw [hl] at h; exact List.mem_append_right _ (agg?_vars r h hw)
    · rw [hl] at h; exact List.mem_append_left _ (agg?_vars l (hl.trans h) hw)
  | .op _ ts, h, hw => aggList?_vars ts h hw
  | .agg _ _ _, h, hw => by
    simp only [agg?, Option.some.injEq, Prod.mk.injEq] at h
    obtain ⟨rfl, rfl, rfl⟩ := h; exact hw
theorem aggList?_vars {w : Variable} {k : Nat} {i : Operation α} {d : List Variable} : ∀ ts : List (HTerm α),
    aggList? ts = some (k, i, d) → w ∈ i.vars ++ d → w ∈ varsList ts
  | [], h, _ => by simp [aggList?] at h
  | t :: ts, h, hw => by
    rw [aggList?] at h
    rcases hl : t.agg? with _ | x
    · rw [hl] at h; exact List.mem_append_right _ (aggList?_vars ts h hw)
    · rw [hl] at h; exact List.mem_append_left _ (agg?_vars t (hl.trans h) hw)
end

theorem mem_varsList {ts : List (HTerm α)} {t : HTerm α} (ht : t ∈ ts) {v : Variable} (hv : v ∈ t.vars) : v ∈ varsList ts := by
  induction ts with
  | nil => cases ht
  | cons a ts ih =>
    rcases List.mem_cons.1 ht with rfl | ht
    · exact List.mem_append_left _ hv
    · exact List.mem_append_right _ (ih ht)

theorem aggCountList_le {ts : List (HTerm α)} {t : HTerm α} (ht : t ∈ ts) : t.aggCount ≤ aggCountList ts := by
  induction ts with
  | nil => cases ht
  | cons a ts ih =>
    rw [aggCountList]
    rcases List.mem_cons.1 ht with rfl | ht
    · omega
    · have := ih ht; omega

/-- two terms with aggregates in a list with at most one aggregate are at the same position -/
theorem aggCountList_unique {ts : List (HTerm α)} (h : aggCountList ts ≤ 1) {i j : Nat} {t t' : HTerm α}
    (hi : ts[i]? = some t) (hj : ts[j]? = some t') (ht : t.aggCount ≠ 0) (ht' : t'.aggCount ≠ 0) : i = j := by
  induction ts generalizing i j with
  | nil => simp at hi
  | cons a ts ih =>
    rw [aggCountList] at h
    rcases i with _ | i <;> rcases j with _ | j
    · rfl
    · simp only [List.getElem?_cons_zero, Option.some.injEq] at hi
      simp only [List.getElem?_cons_succ] at hj
      have := aggCountList_le (List.mem_of_getElem? hj)
      subst hi; omega
    · simp only [List.getElem?_cons_zero, Option.some.injEq] at hj
      simp only [List.getElem?_cons_succ] at hi
      have := aggCountList_le (List.mem_of_getElem? hi)
      subst hj; omega
    · rw [ih (by omega) (i := i) (j := j) (by simpa using hi) (by simpa using hj)]

/-- The term is replaced by a new variable. -/
def isOper : HTerm α → Bool
  | .equal _ _ => true
  | .op _ _ => true
  | _ => false

/-- What a term is replaced by. -/
def prim : HTerm α → Nat → Primitive α
  | .var v, _ => .var v
  | .const a, _ => .const a
  | .agg _ _ _, _ => .var aggOut
  | .equal _ _, g => .var (freshVar "HEAD" (g + 1))
  | .op _ _, g => .var (freshVar "HEAD" (g + 1))

theorem prim_oper {t : HTerm α} (h : t.isOper = true) (g : Nat) : t.prim g = .var (freshVar "HEAD" (g + 1)) := by
  cases t <;> simp_all [isOper, prim]

end HTerm

/-- the state of the generator before a position of the head -/
def headGen (ts : List (HTerm α)) (g j : Nat) : Nat := g + (ts.take j).countP HTerm.isOper

theorem headGen_zero (ts : List (HTerm α)) (g : Nat) : headGen ts g 0 = g := by simp [headGen]
theorem headGen_oper {t : HTerm α} (ht : t.isOper = true) (ts : List (HTerm α)) (g j : Nat) :
    headGen (t :: ts) g (j + 1) = headGen ts (g + 1) j := by
  simp [headGen, List.countP_cons, ht]; omega
theorem headGen_plain {t : HTerm α} (ht : t.isOper = false) (ts : List (HTerm α)) (g j : Nat) :
    headGen (t :: ts) g (j + 1) = headGen ts g j := by
  simp [headGen, List.countP_cons, ht]

theorem normHeadLoop_oper {t : HTerm α} (ht : t.isOper = true) (ts : List (HTerm α)) (i g : Nat) :
    normHeadLoop (t :: ts) i g = normHeadOper t i g (normHeadLoop ts (i + 1) (g + 1)) := by
  cases t <;> simp_all [HTerm.isOper, normHeadLoop]

theorem normHeadLoop_plain {t : HTerm α} (ht : t.isOper = false) (ts : List (HTerm α)) (i g : Nat) :
    normHeadLoop (t :: ts) i g = ⟨t.prim g :: (normHeadLoop ts (i + 1) g).terms, (normHeadLoop ts (i + 1) g).ops,
      (normHeadLoop ts (i + 1) g).gen, (normHeadLoop ts (i + 1) g).agg.orElse fun _ =>
        t.agg?.map fun a => (a, t.norm.vars.filter fun v => !decide (v = aggOut), i)⟩ := by
  cases t with
  | var v => simp only [normHeadLoop, HTerm.prim, HTerm.agg?]; cases (normHeadLoop ts (i + 1) g).agg <;> rfl
  | const v => simp only [normHeadLoop, HTerm.prim, HTerm.agg?]; cases (normHeadLoop ts (i + 1) g).agg <;> rfl
  | agg k o d => simp [normHeadLoop, HTerm.prim, HTerm.agg?, HTerm.norm, Operation.vars]
  | equal l r => simp [HTerm.isOper] at ht
  | op k ts => simp [HTerm.isOper] at ht

theorem normHeadLoop_gen (ts : List (HTerm α)) (i g : Nat) : (normHeadLoop ts i g).gen = g + ts.countP HTerm.isOper := by
  induction ts generalizing i g with
  | nil => rfl
  | cons t ts ih =>
    by_cases ht : t.isOper = true
    · rw [normHeadLoop_oper ht, normHeadOper, ih, List.countP_cons, if_pos ht]; omega
    · simp only [Bool.not_eq_true] at ht
      rw [normHeadLoop_plain ht]; simp [ih, List.countP_cons, ht]

theorem normHeadLoop_terms (ts : List (HTerm α)) (i g j : Nat) :
    (normHeadLoop ts i g).terms[j]? = ts[j]?.map fun t => t.prim (headGen ts g j) := by
  induction ts generalizing i g j with
  | nil => simp [normHeadLoop]
  | cons t ts ih =>
    by_cases ht : t.isOper = true
    · rw [normHeadLoop_oper ht, normHeadOper]
      rcases j with _ | j
      · simp [headGen_zero, HTerm.prim_oper ht]
      · rw [headGen_oper ht]; simp [ih]
    · simp only [Bool.not_eq_true] at ht
      rw [normHeadLoop_plain ht]
      rcases j with _ | j
      · simp [headGen_zero]
      · rw [headGen_plain ht]; simp [ih]

theorem normHeadLoop_length (ts : List (HTerm α)) (i g : Nat) : (normHeadLoop ts i g).terms.length = ts.length := by
  induction ts generalizing i g with
  | nil => rfl
  | cons t ts ih =>
    by_cases ht : t.isOper = true
    · rw [normHeadLoop_oper ht, normHeadOper]; simp [ih]
    · simp only [Bool.not_eq_true] at ht
      rw [normHeadLoop_plain ht]; simp [ih]

theorem mem_normHeadLoop_ops (ts : List (HTerm α)) (i g : Nat) (o : Operation α) : o ∈ (normHeadLoop ts i g).ops ↔
    ∃ (j : Nat) (t : HTerm α), ts[j]? = some t ∧ t.isOper = true ∧
      o = .equal (.var (freshVar "HEAD" (headGen ts g j + 1))) t.norm := by
  induction ts generalizing i g with
  | nil => simp [normHeadLoop]
  | cons t ts ih =>
    have shift : ∀ (P : Nat → HTerm α → Prop), (∃ (j : Nat) (t' : HTerm α), (t :: ts)[j]? = some t' ∧ P j t') ↔
        P 0 t ∨ ∃ (j : Nat) (t' : HTerm α), ts[j]? = some t' ∧ P (j + 1) t' := by
      intro P
      constructor
      · rintro ⟨j, t', h, hp⟩
        rcases j with _ | j
        · simp only [List.getElem?_cons_zero, Option.some.injEq] at h; subst h; exact .inl hp
        · exact .inr ⟨j, t', by simpa using h, hp⟩
      · rintro (h | ⟨j, t', h, hp⟩)
        · exact ⟨0, t, rfl, h⟩
        · exact ⟨j + 1, t', by simpa using h, hp⟩
    rw [shift]
    by_cases ht : t.isOper = true
    · rw [normHeadLoop_oper ht, normHeadOper]
      simp only [List.mem_cons, ih, headGen_zero, headGen_oper ht, ht, true_and]
    · simp only [Bool.not_eq_true] at ht
      rw [normHeadLoop_plain ht]
      simp only [ih, headGen_plain ht, ht, Bool.false_eq_true, false_and, false_or]

theorem normHeadLoop_agg (ts : List (HTerm α)) (i g : Nat) :
    match (normHeadLoop ts i g).agg with
    | none => ∀ t ∈ ts, t.agg? = none
    | some (a, outer, j') => ∃ (j : Nat) (t : HTerm α), j' = i + j ∧ ts[j]? = some t ∧ t.agg? = some a ∧
        outer = t.norm.vars.filter fun v => !decide (v = aggOut) := by
  induction ts generalizing i g with
  | nil => simp [normHeadLoop]
  | cons t ts ih =>
    have key : ∀ r : HeadParts α, (match r.agg with
        | none => ∀ t ∈ ts, t.agg? = none
        | some (a, outer, j') => ∃ (j : Nat) (t : HTerm α), j' = (i + 1) + j ∧ ts[j]? = some t ∧ t.agg? = some a ∧
            outer = t.norm.vars.filter fun v => !decide (v = aggOut)) →
        match r.agg.orElse fun _ => t.agg?.map fun a => (a, t.norm.vars.filter fun v => !decide (v = aggOut), i) with
        | none => ∀ t' ∈ t :: ts, t'.agg? = none
        | some (a, outer, j') => ∃ (j : Nat) (t' : HTerm α), j' = i + j ∧ (t :: ts)[j]? = some t' ∧ t'.agg? = some a ∧
            outer = t'.norm.vars.filter fun v => !decide (v = aggOut) := by
      intro r hr
      rcases h : r.agg with _ | ⟨a, outer, j'⟩
      · rw [h] at hr
        simp only [Option.orElse_eq_orElse, Option.orElse_none] at *
        rcases ht : t.agg? with _ | a
        · simp only [Option.map_none]
          exact List.forall_mem_cons.2 ⟨ht, hr⟩
        · simp only [Option.map_some]
          exact ⟨0, t, rfl, rfl, ht, rfl⟩
      · rw [h] at hr
        simp only [Option.orElse_eq_orElse, Option.orElse_some] at *
        obtain ⟨j, t', h1, h2, h3, h4⟩ := hr
        exact ⟨j + 1, t', by omega, by simpa using h2, h3, h4⟩
    by_cases ht : t.isOper = true
    · rw [normHeadLoop_oper ht]
      exact key _ (ih (i + 1) (g + 1))
    · simp only [Bool.not_eq_true] at ht
      rw [normHeadLoop_plain ht]
      exact key _ (ih (i + 1) g)

/-- a variable that was generated for a head between two states of the generator -/
def HeadFresh (g g' : Nat) (v : Variable) : Prop := ∃ k, g < k ∧ k ≤ g' ∧ v = freshVar "HEAD" k

theorem HeadFresh.mono {g g' h h' : Nat} {v : Variable} (hv : HeadFresh g g' v) (h1 : h ≤ g) (h2 : g' ≤ h') :
    HeadFresh h h' v := by
  obtain ⟨k, a, b, rfl⟩ := hv
  exact ⟨k, by omega, by omega, rfl⟩

theorem HeadFresh.reserved {g g' : Nat} {v : Variable} (h : HeadFresh g g' v) : v.Reserved := by
  obtain ⟨k, _, _, rfl⟩ := h; exact head_reserved _

theorem HeadFresh.ne_aggOut {g g' : Nat} {v : Variable} (h : HeadFresh g g' v) : v ≠ aggOut := by
  obtain ⟨k, _, _, rfl⟩ := h; exact (fresh_ne_agg k).2.2.2

theorem HeadFresh.ne_aggIn {g g' : Nat} {v : Variable} (h : HeadFresh g g' v) : v ≠ aggIn := by
  obtain ⟨k, _, _, rfl⟩ := h; exact (fresh_ne_agg k).2.2.1

theorem HeadFresh.not_body {g g' h h' : Nat} {v : Variable} (hv : HeadFresh g g' v) : ¬ BodyFresh h h' v := by
  obtain ⟨k, _, _, rfl⟩ := hv
  rintro ⟨k', _, _, e⟩
  exact body_ne_head k' k e.symm

theorem headGen_le (ts : List (HTerm α)) (i g j : Nat) : g ≤ headGen ts g j ∧ headGen ts g j ≤ (normHeadLoop ts i g).gen := by
  rw [normHeadLoop_gen]
  refine ⟨Nat.le_add_right _ _, Nat.add_le_add_left ?_ _⟩
  exact (List.take_sublist j ts).countP_le

theorem headGen_lt (ts : List (HTerm α)) (i g j : Nat) (t : HTerm α) (h : ts[j]? = some t) (ht : t.isOper = true) :
    headGen ts g j < (normHeadLoop ts i g).gen := by
  rw [normHeadLoop_gen]
  refine Nat.add_lt_add_left ?_ _
  have h1 : (ts.take (j + 1)).countP HTerm.isOper ≤ ts.countP HTerm.isOper := (List.take_sublist (j + 1) ts).countP_le
  rw [List.take_add_one, h, List.countP_append] at h1
  simp [ht] at h1
  omega

theorem normHeadLoop_ops_form {ts : List (HTerm α)} {i g : Nat} {o : Operation α} (ho : o ∈ (normHeadLoop ts i g).ops) :
    ∃ f, ∃ t ∈ ts, o = .equal (.var f) t.norm ∧ HeadFresh g (normHeadLoop ts i g).gen f ∧ t.isOper = true := by
  obtain ⟨j, t, h1, h2, rfl⟩ := (mem_normHeadLoop_ops ts i g o).1 ho
  exact ⟨_, t, List.mem_of_getElem? h1, rfl,
    ⟨_, Nat.lt_succ_of_le (headGen_le ts i g j).1, headGen_lt ts i g j t h1 h2, rfl⟩, h2⟩

/-- the terms only use names that can be written -/
def UserHead (ts : List (HTerm α)) : Prop := ∀ t ∈ ts, ∀ v ∈ t.vars, ¬ v.Reserved

theorem UserHead.norm {ts : List (HTerm α)} (hu : UserHead ts) {t : HTerm α} (ht : t ∈ ts) {v : Variable}
    (hv : v ∈ t.norm.vars) : ¬ v.Reserved ∨ v = aggOut := by
  rcases (HTerm.mem_norm_vars v t).1 hv with h | h
  · exact .inl (hu t ht v (HTerm.outerVars_sub t h))
  · exact .inr h.1

theorem UserHead.not_fresh {ts : List (HTerm α)} (hu : UserHead ts) {t : HTerm α} (ht : t ∈ ts) {v : Variable}
    (hv : v ∈ t.norm.vars) (k : Nat) : v ≠ freshVar "HEAD" k := by
  rintro rfl
  rcases hu.norm ht hv with h | h
  · exact h (head_reserved _)
  · exact (fresh_ne_agg k).2.2.2 h

/-- The new variables of a head can be given the values of the terms. -/
theorem normHeadLoop_assign (ts : List (HTerm α)) (hu : UserHead ts) (i g : Nat) (σ : Variable → α) :
    ∃ σ' : Variable → α, (∀ v, ¬ HeadFresh g (normHeadLoop ts i g).gen v → σ' v = σ v) ∧
      ∀ f e, .equal (.var f) e ∈ (normHeadLoop ts i g).ops → e.eval σ ≠ none →
        (Operation.equal (.var f) e).eval σ' = some Dom.tru := by
  induction ts generalizing i g with
  | nil => exact ⟨σ, fun _ _ => rfl, by simp [normHeadLoop]⟩
  | cons t ts ih =>
    have hu' : UserHead ts := fun t ht => hu t (List.mem_cons_of_mem _ ht)
    by_cases ht : t.isOper = true
    · rw [normHeadLoop_oper ht, normHeadOper]
      obtain ⟨σ1, s1, s2⟩ := ih hu' (i + 1) (g + 1)
      have hgen : g + 1 ≤ (normHeadLoop ts (i + 1) (g + 1)).gen := by rw [normHeadLoop_gen]; omega
      have first : HeadFresh g (normHeadLoop ts (i + 1) (g + 1)).gen (freshVar "HEAD" (g + 1)) :=
        ⟨g + 1, by omega, hgen, rfl⟩
      refine ⟨fun v => if v = freshVar "HEAD" (g + 1) then (t.norm.eval σ).getD Dom.tru else σ1 v, ?_, ?_⟩
      · intro v hv
        dsimp only
        rw [if_neg (by rintro rfl; exact hv first)]
        exact s1 v fun hc => hv (hc.mono (by omega) le_rfl)
      · intro f e ho he
        rcases List.mem_cons.1 ho with ho | ho
        · cases ho
          rw [eval_assign, if_pos rfl]
          obtain ⟨b, hb⟩ := Option.ne_none_iff_exists'.1 he
          rw [hb, Option.getD_some, ← hb]
          refine Operation.eval_congr _ fun v hv => ?_
          rw [if_neg (hu.not_fresh List.mem_cons_self hv _)]
          refine s1 v ?_
          rintro ⟨k, _, _, rfl⟩
          exact hu.not_fresh List.mem_cons_self hv _ rfl
        · rw [← s2 f e ho he]
          obtain ⟨f', t', ht', hh, ⟨k, hk, _, rfl⟩, -⟩ := normHeadLoop_ops_form ho
          cases hh
          refine Operation.eval_congr _ fun v hv => if_neg ?_
          rcases List.mem_append.1 hv with hv | hv
          · obtain rfl : v = _ := by simpa [Operation.vars] using hv
            intro hc; have := freshVar_inj hc; omega
          · exact hu'.not_fresh ht' hv _
    · simp only [Bool.not_eq_true] at ht
      rw [normHeadLoop_plain ht]
      exact ih hu' (i + 1) g

/-! ## Lists of head atoms -/

/-- the state of the generator before a head atom -/
def headsGen (hs : List (SHead α)) (g j : Nat) : Nat := g + ((hs.take j).map fun h => h.terms.countP HTerm.isOper).sum

theorem headsGen_zero (hs : List (SHead α)) (g : Nat) : headsGen hs g 0 = g := by simp [headsGen]

theorem normHeadAtom_atom (h : SHead α) (g : Nat) :
    (normHeadAtom h g).1 = ⟨h.pred, (normHeadLoop h.terms 0 g).terms⟩ := by
  rw [normHeadAtom]; rcases (normHeadLoop h.terms 0 g).agg with _ | ⟨a, outer, j⟩ <;> rfl

theorem normHeadAtom_gen (h : SHead α) (g : Nat) : (normHeadAtom h g).2.2.1 = (normHeadLoop h.terms 0 g).gen := by
  rw [normHeadAtom]; rcases (normHeadLoop h.terms 0 g).agg with _ | ⟨a, outer, j⟩ <;> rfl

theorem mem_normHeadAtom_ops (h : SHead α) (g : Nat) (o : Operation α) : o ∈ (normHeadAtom h g).2.1 ↔
    o ∈ (normHeadLoop h.terms 0 g).ops ∨ ∃ a outer j, (normHeadLoop h.terms 0 g).agg = some (a, outer, j) ∧
      o ∈ (normAggInput a.2.1).2 := by
  rw [normHeadAtom]; rcases (normHeadLoop h.terms 0 g).agg with _ | ⟨a, outer, j⟩
  · simp
  · simp

theorem normHeadAtom_agg (h : SHead α) (g : Nat) : (normHeadAtom h g).2.2.2 =
    (normHeadLoop h.terms 0 g).agg.map fun x => ⟨x.1.1, (normAggInput x.1.2.1).1, aggOut, x.1.2.2,
      groupByVars (normHeadLoop h.terms 0 g).terms x.2.1 x.2.2⟩ := by
  rw [normHeadAtom]; rcases (normHeadLoop h.terms 0 g).agg with _ | ⟨a, outer, j⟩ <;> rfl

theorem headsGen_succ (h : SHead α) (hs : List (SHead α)) (g j : Nat) :
    headsGen (h :: hs) g (j + 1) = headsGen hs (normHeadAtom h g).2.2.1 j := by
  rw [normHeadAtom_gen, normHeadLoop_gen]; simp [headsGen]; omega

theorem normHeadAtoms_atoms (hs : List (SHead α)) (i g j : Nat) : (normHeadAtoms hs i g).1[j]? =
    hs[j]?.map fun h => ⟨h.pred, (normHeadLoop h.terms 0 (headsGen hs g j)).terms⟩ := by
  induction hs generalizing i g j with
  | nil => simp [normHeadAtoms]
  | cons h hs ih =>
    rw [normHeadAtoms]
    rcases j with _ | j
    · simp [headsGen_zero, normHeadAtom_atom]
    · simp [ih, headsGen_succ]

theorem mem_normHeadAtoms_ops (hs : List (SHead α)) (i g : Nat) (o : Operation α) : o ∈ (normHeadAtoms hs i g).2.1 ↔
    ∃ (j : Nat) (h : SHead α), hs[j]? = some h ∧ o ∈ (normHeadAtom h (headsGen hs g j)).2.1 := by
  induction hs generalizing i g with
  | nil => simp [normHeadAtoms]
  | cons h hs ih =>
    rw [normHeadAtoms]
    simp only [List.mem_append, ih]
    constructor
    · rintro (ho | ⟨j, h', h1, h2⟩)
      · exact ⟨0, h, rfl, by rw [headsGen_zero]; exact ho⟩
      · exact ⟨j + 1, h', by simpa using h1, by rw [headsGen_succ]; exact h2⟩
    · rintro ⟨j, h', h1, h2⟩
      rcases j with _ | j
      · simp only [List.getElem?_cons_zero, Option.some.injEq] at h1
        subst h1; rw [headsGen_zero] at h2; exact .inl h2
      · rw [headsGen_succ] at h2
        exact .inr ⟨j, h', by simpa using h1, h2⟩

theorem normHeadAtoms_agg (hs : List (SHead α)) (i g : Nat) :
    match (normHeadAtoms hs i g).2.2 with
    | none => ∀ h ∈ hs, ∀ t ∈ h.terms, t.agg? = none
    | some (a, j') => ∃ (j : Nat) (h : SHead α), j' = i + j ∧ hs[j]? = some h ∧
        (normHeadAtom h (headsGen hs g j)).2.2.2 = some a := by
  induction hs generalizing i g with
  | nil => simp [normHeadAtoms]
  | cons h hs ih =>
    have ih := ih (i + 1) (normHeadAtom h g).2.2.1
    rw [normHeadAtoms]
    rcases hr : (normHeadAtoms hs (i + 1) (normHeadAtom h g).2.2.1).2.2 with _ | ⟨a, j'⟩
    · rw [hr] at ih
      simp only [hr, Option.orElse_eq_orElse, Option.orElse_none] at *
      rcases ha : (normHeadAtom h g).2.2.2 with _ | a
      · simp only [Option.map_none]
        refine List.forall_mem_cons.2 ⟨?_, ih⟩
        have := normHeadLoop_agg h.terms 0 g
        rw [normHeadAtom_agg, Option.map_eq_none_iff] at ha
        rw [ha] at this
        exact this
      · simp only [Option.map_some]
        exact ⟨0, h, rfl, rfl, by rw [headsGen_zero]; exact ha⟩
    · rw [hr] at ih
      simp only [hr, Option.orElse_eq_orElse, Option.orElse_some] at *
      obtain ⟨j, h', h1, h2, h3⟩ := ih
      exact ⟨j + 1, h', by omega, by simpa using h2, by rw [headsGen_succ]; exact h3⟩

/-- The new variables of all heads can be given the values of the terms. -/
theorem normHeadAtoms_assign (hs : List (SHead α)) (hu : ∀ h ∈ hs, UserHead h.terms) (i g : Nat) (σ : Variable → α) :
    ∃ σ' : Variable → α, (∀ v, (∀ g' : Nat, ¬ HeadFresh g g' v) → σ' v = σ v) ∧
      ∀ (j : Nat) (h : SHead α) f e, hs[j]? = some h → .equal (.var f) e ∈ (normHeadLoop h.terms 0 (headsGen hs g j)).ops →
        e.eval σ ≠ none → (Operation.equal (.var f) e).eval σ' = some Dom.tru := by
  induction hs generalizing i g σ with
  | nil => exact ⟨σ, fun _ _ => rfl, by simp⟩
  | cons h hs ih =>
    have hu' : ∀ h ∈ hs, UserHead h.terms := fun h hh => hu h (List.mem_cons_of_mem _ hh)
    obtain ⟨σ1, s1, s2⟩ := normHeadLoop_assign h.terms (hu h List.mem_cons_self) 0 g σ
    obtain ⟨σ2, t1, t2⟩ := ih hu' (i + 1) (normHeadAtom h g).2.2.1 σ1
    have keep1 : ∀ h' ∈ h :: hs, ∀ t ∈ h'.terms, t.norm.eval σ1 = t.norm.eval σ := by
      intro h' hh t ht
      refine Operation.eval_congr _ fun v hv => s1 v ?_
      rintro ⟨k, _, _, rfl⟩
      exact (hu h' hh).not_fresh ht hv _ rfl
    refine ⟨σ2, ?_, ?_⟩
    · intro v hv
      rw [t1 v fun g' hc => hv g' (hc.mono (by rw [normHeadAtom_gen, normHeadLoop_gen]; omega) le_rfl)]
      exact s1 v (hv _)
    · intro j h' f e hj ho he
      rcases j with _ | j
      · simp only [List.getElem?_cons_zero, Option.some.injEq] at hj
        subst hj
        rw [headsGen_zero] at ho
        rw [← s2 f e ho he]
        obtain ⟨f', t', ht', hh, hf, -⟩ := normHeadLoop_ops_form ho
        cases hh
        refine Operation.eval_congr _ fun v hv => t1 v fun g' hc => ?_
        rcases List.mem_append.1 hv with hv | hv
        · obtain rfl : v = f := by simpa [Operation.vars] using hv
          obtain ⟨k, _, hk, rfl⟩ := hf
          obtain ⟨k', hk', _, e⟩ := hc
          have := freshVar_inj e
          rw [normHeadAtom_gen] at hk'
          omega
        · obtain ⟨k', _, _, e⟩ := hc
          exact (hu h List.mem_cons_self).not_fresh ht' hv _ e
      · rw [headsGen_succ] at ho
        have hj' : hs[j]? = some h' := by simpa using hj
        refine t2 j h' f e hj' ho ?_
        obtain ⟨f', t', ht', hh, hf, -⟩ := normHeadLoop_ops_form ho
        cases hh
        rw [keep1 h' (List.mem_cons_of_mem _ (List.mem_of_getElem? hj')) t' ht']
        exact he

end headTerms

end Verif
