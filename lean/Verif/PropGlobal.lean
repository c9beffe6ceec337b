import Verif.Global

/-!
# Global parameters (C62)

If the declarations are accepted then each declared parameter has exactly one value, and the transformed program is the program in which global variables
have these values.
-/

set_option linter.unusedSimpArgs false

namespace Verif.Glob
variable {α : Type}

/-! ## The specification -/

/-- `γ` gives values to the global variables: those that are given from outside have the given values, those that are only declared have the
values of their expressions. -/
def Solution (I : Meaning α) (external : List (Nat × α)) (ps : List (Param α)) (γ : Nat → Option α) : Prop :=
  (∀ x ∈ external, γ x.1 = some x.2) ∧
  ∀ p ∈ ps, p.name ∉ external.map Prod.fst → ∀ e, p.expression = some e → γ p.name = e.eval I γ noValues

/-! ## Loops -/

section loop
variable {σ π : Type} {size : σ → Nat} {step : σ → π → σ} {μ : σ → Nat} {Inv : σ → Prop}

theorem foldl_spec {ps : List π} (h : ∀ p ∈ ps, ∀ s, step s p = s ∨ (size (step s p) = size s + 1 ∧ μ (step s p) < μ s))
    (hinv : ∀ p ∈ ps, ∀ s, Inv s → Inv (step s p)) (s : σ) :
    (Inv s → Inv (ps.foldl step s)) ∧ ((ps.foldl step s = s ∧ ∀ p ∈ ps, step s p = s) ∨ (size s < size (ps.foldl step s) ∧ μ (ps.foldl step s) < μ s)) := by
  induction ps generalizing s with
  | nil => exact ⟨id, .inl ⟨rfl, by simp⟩⟩
  | cons p ps ih =>
    obtain ⟨h1, h2⟩ := ih (fun q hq => h q (List.mem_cons_of_mem _ hq)) (fun q hq => hinv q (List.mem_cons_of_mem _ hq)) (step s p)
    rw [List.foldl_cons]
    refine ⟨fun hi => h1 (hinv p List.mem_cons_self s hi), ?_⟩
    rcases h p List.mem_cons_self s with h3 | ⟨h3, h4⟩
    · rw [h3] at h2 ⊢
      rcases h2 with ⟨h5, h6⟩ | h5
      · refine .inl ⟨h5, fun q hq => ?_⟩
        rcases List.mem_cons.1 hq with rfl | hq
        · exact h3
        · exact h6 q hq
      · exact .inr h5
    · rcases h2 with ⟨h5, -⟩ | ⟨h5, h6⟩
      · rw [h5]; exact .inr ⟨by omega, h4⟩
      · exact .inr ⟨by omega, by omega⟩

/-- The loop ends, and then nothing can be added. -/
theorem untilStable_spec {ps : List π} (h : ∀ p ∈ ps, ∀ s, step s p = s ∨ (size (step s p) = size s + 1 ∧ μ (step s p) < μ s))
    (hinv : ∀ p ∈ ps, ∀ s, Inv s → Inv (step s p)) (n : Nat) (s : σ) (hn : μ s < n) (hs : Inv s) :
    ∃ s', untilStable size step ps n s = some s' ∧ Inv s' ∧ ∀ p ∈ ps, step s' p = s' := by
  induction n generalizing s with
  | zero => omega
  | succ n ih =>
    obtain ⟨h1, h2⟩ := foldl_spec h hinv s
    rw [untilStable]
    rcases h2 with ⟨h2, h3⟩ | ⟨h2, h3⟩
    · simp only [h2, if_true]
      exact ⟨s, rfl, hs, h3⟩
    · simp only [show size (ps.foldl step s) ≠ size s by omega, if_false]
      exact ih _ (by omega) (h1 hs)

end loop

/-- The number of parameters that are not in a set decreases. -/
theorem count_lt {ps : List (Param α)} {A B : Nat → Prop} [DecidablePred A] [DecidablePred B] (hAB : ∀ g, A g → B g) {p : Param α} (hp : p ∈ ps) (h1 : ¬ A p.name) (h2 : B p.name) :
    (ps.filter fun q => decide (¬ B q.name)).length < (ps.filter fun q => decide (¬ A q.name)).length := by
  induction ps with
  | nil => cases hp
  | cons q ps ih =>
    have hle : ∀ l : List (Param α), (l.filter fun q => decide (¬ B q.name)).length ≤ (l.filter fun q => decide (¬ A q.name)).length := by
      intro l
      induction l with
      | nil => exact Nat.le_refl _
      | cons q l ih =>
        rw [List.filter_cons, List.filter_cons]
        by_cases hA : A q.name
        · simp only [hA, hAB _ hA, not_true_eq_false, decide_false, Bool.false_eq_true, if_false]
          exact ih
        · by_cases hB : B q.name
          · simp only [hA, hB, not_true_eq_false, not_false_eq_true, decide_false, decide_true, Bool.false_eq_true, if_false, if_true, List.length_cons]
            omega
          · simp only [hA, hB, not_false_eq_true, decide_true, if_true, List.length_cons]
            omega
    rw [List.filter_cons, List.filter_cons]
    rcases List.mem_cons.1 hp with rfl | hp
    · have := hle ps
      simp only [h1, h2, not_true_eq_false, not_false_eq_true, decide_false, decide_true, Bool.false_eq_true, if_false, if_true, List.length_cons]
      omega
    · have := ih hp
      by_cases hA : A q.name
      · simp only [hA, hAB _ hA, not_true_eq_false, decide_false, Bool.false_eq_true, if_false]
        exact this
      · by_cases hB : B q.name
        · simp only [hA, hB, not_true_eq_false, not_false_eq_true, decide_false, decide_true, Bool.false_eq_true, if_false, if_true, List.length_cons]
          omega
        · simp only [hA, hB, not_false_eq_true, decide_true, if_true, List.length_cons]
          omega

/-! ## Substitutions -/

theorem get_cons (g g' : Nat) (t : Tm α) (s : Subst α) : Subst.get ((g, t) :: s) g' = if g = g' then some t else s.get g' := by
  unfold Subst.get
  rw [List.find?_cons]
  by_cases h : g = g'
  · simp [h]
  · rw [show (g == g') = false by simpa using h, if_neg h]

/-- The values of a substitution; other global variables have the values `γ` -/
def values (I : Meaning α) (s : Subst α) (γ : Nat → Option α) (g : Nat) : Option α :=
  match s.get g with
  | some t => t.eval I noValues noValues
  | none => γ g

/-- All terms of the substitution are ground. -/
def Grounded (s : Subst α) : Prop := ∀ g t, s.get g = some t → t.isGround = true

mutual
theorem eval_ground (I : Meaning α) : ∀ (t : Tm α), t.isGround = true → ∀ γ σ γ' σ', t.eval I γ σ = t.eval I γ' σ'
  | .global _, h, _, _, _, _ => by simp [Tm.isGround] at h
  | .var _, h, _, _, _, _ => by simp [Tm.isGround] at h
  | .ground _, _, _, _, _, _ => rfl
  | .op f args, h, γ, σ, γ', σ' => by rw [Tm.eval, Tm.eval, evalAll_ground I args (by simpa [Tm.isGround] using h) γ σ γ' σ']
  | .other f args, h, γ, σ, γ', σ' => by rw [Tm.eval, Tm.eval, evalAll_ground I args (by simpa [Tm.isGround] using h) γ σ γ' σ']
theorem evalAll_ground (I : Meaning α) : ∀ (ts : List (Tm α)), allGround ts = true → ∀ γ σ γ' σ', evalAll I γ σ ts = evalAll I γ' σ' ts
  | [], _, _, _, _, _ => rfl
  | t :: ts, h, γ, σ, γ', σ' => by
    simp only [allGround, Bool.and_eq_true] at h
    rw [evalAll, evalAll, eval_ground I t h.1 γ σ γ' σ', evalAll_ground I ts h.2 γ σ γ' σ']
end

mutual
/-- The value of a term depends on the values of its variables. -/
theorem eval_congr (I : Meaning α) : ∀ (t : Tm α) {γ γ' σ : Nat → Option α}, (∀ g ∈ t.globals, γ g = γ' g) → t.eval I γ σ = t.eval I γ' σ
  | .global g, _, _, _, h => h g (by simp [Tm.globals])
  | .var _, _, _, _, _ => rfl
  | .ground _, _, _, _, _ => rfl
  | .op f args, _, _, _, h => by rw [Tm.eval, Tm.eval, evalAll_congr I args (by simpa [Tm.globals] using h)]
  | .other f args, _, _, _, h => by rw [Tm.eval, Tm.eval, evalAll_congr I args (by simpa [Tm.globals] using h)]
theorem evalAll_congr (I : Meaning α) : ∀ (ts : List (Tm α)) {γ γ' σ : Nat → Option α}, (∀ g ∈ allGlobals ts, γ g = γ' g) → evalAll I γ σ ts = evalAll I γ' σ ts
  | [], _, _, _, _ => rfl
  | t :: ts, _, _, _, h => by
    rw [evalAll, evalAll, eval_congr I t fun g hg => h g (by simp [allGlobals, hg]), evalAll_congr I ts fun g hg => h g (by simp [allGlobals, hg])]
end

mutual
/-- **Replacing global variables gives a term with the same value.** -/
theorem eval_apply (I : Meaning α) {s : Subst α} (hs : Grounded s) (γ σ : Nat → Option α) : ∀ (t : Tm α), (s.apply t).eval I γ σ = t.eval I (values I s γ) σ
  | .global g => by
    simp only [Subst.apply, Tm.eval, values]
    cases h : s.get g with
    | none => rfl
    | some t => exact eval_ground I t (hs g t h) _ _ _ _
  | .var _ => rfl
  | .ground _ => rfl
  | .op f args => by rw [Subst.apply, Tm.eval, Tm.eval, evalAll_apply I hs γ σ args]
  | .other f args => by rw [Subst.apply, Tm.eval, Tm.eval, evalAll_apply I hs γ σ args]
theorem evalAll_apply (I : Meaning α) {s : Subst α} (hs : Grounded s) (γ σ : Nat → Option α) : ∀ (ts : List (Tm α)), evalAll I γ σ (s.applyAll ts) = evalAll I (values I s γ) σ ts
  | [] => rfl
  | t :: ts => by rw [Subst.applyAll, evalAll, evalAll, eval_apply I hs γ σ t, evalAll_apply I hs γ σ ts]
end

mutual
/-- A term is ground after the replacement iff all of its global variables are replaced and it has no other variables. -/
theorem ground_apply {s : Subst α} (hs : Grounded s) : ∀ (t : Tm α), (s.apply t).isGround = true ↔ (∀ g ∈ t.globals, (s.get g).isSome) ∧ t.vars = []
  | .global g => by
    simp only [Subst.apply, Tm.globals, Tm.vars, List.mem_singleton, forall_eq, and_true]
    cases h : s.get g with
    | none => simp [Tm.isGround]
    | some t => simpa using hs g t h
  | .var v => by simp [Subst.apply, Tm.isGround, Tm.vars]
  | .ground a => by simp [Subst.apply, Tm.isGround, Tm.globals, Tm.vars]
  | .op f args => by rw [Subst.apply, Tm.isGround, Tm.globals, Tm.vars]; exact allGround_apply hs args
  | .other f args => by rw [Subst.apply, Tm.isGround, Tm.globals, Tm.vars]; exact allGround_apply hs args
theorem allGround_apply {s : Subst α} (hs : Grounded s) : ∀ (ts : List (Tm α)), allGround (s.applyAll ts) = true ↔ (∀ g ∈ allGlobals ts, (s.get g).isSome) ∧ allVars ts = []
  | [] => by simp [Subst.applyAll, allGround, allGlobals, allVars]
  | t :: ts => by
    rw [Subst.applyAll, allGround, Bool.and_eq_true, ground_apply hs t, allGround_apply hs ts, allGlobals, allVars, List.append_eq_nil_iff]
    constructor
    · rintro ⟨⟨h1, h2⟩, h3, h4⟩
      exact ⟨fun g hg => (List.mem_append.1 hg).elim (h1 g) (h3 g), h2, h4⟩
    · rintro ⟨h1, h2, h3⟩
      exact ⟨⟨fun g hg => h1 g (List.mem_append_left _ hg), h2⟩, fun g hg => h1 g (List.mem_append_right _ hg), h3⟩
end

/-! ## The substitution of a program -/

variable {external : List (Nat × α)} {ps : List (Param α)} {I : Meaning α}

/-- What holds during the loop -/
structure SubstOK (external : List (Nat × α)) (ps : List (Param α)) (I : Meaning α) (s : Subst α) : Prop where
  ground : Grounded s
  given : ∀ x ∈ external, s.get x.1 = some (.ground x.2)
  source : ∀ g t, s.get g = some t → g ∈ external.map Prod.fst ∨ ∃ p ∈ ps, p.name = g ∧ ∃ e, p.expression = some e ∧
    t.eval I noValues noValues = e.eval I (values I s noValues) noValues ∧ ∀ h ∈ e.globals, (s.get h).isSome
  unique : ∀ γ, Solution I external ps γ → ∀ g t, s.get g = some t → γ g = t.eval I noValues noValues

theorem get_external (g : Nat) {t : Tm α} (h : Subst.get (external.map fun x => (x.1, (.ground x.2 : Tm α))) g = some t) : ∃ x ∈ external, x.1 = g ∧ t = .ground x.2 := by
  unfold Subst.get at h
  obtain ⟨y, h1, h2⟩ := Option.map_eq_some_iff.1 h
  obtain ⟨x, h3, h4⟩ := List.mem_map.1 (List.mem_of_find?_eq_some h1)
  have h5 := List.find?_some h1
  subst h4
  exact ⟨x, h3, by simpa using h5, h2.symm⟩

theorem get_external_mem (hk : (external.map Prod.fst).Nodup) {x : Nat × α} (hx : x ∈ external) : Subst.get (external.map fun x => (x.1, (.ground x.2 : Tm α))) x.1 = some (.ground x.2) := by
  induction external with
  | nil => cases hx
  | cons y ys ih =>
    rw [List.map_cons, get_cons]
    rw [List.map_cons, List.nodup_cons] at hk
    rcases List.mem_cons.1 hx with rfl | hx
    · simp
    · have : y.1 ≠ x.1 := fun h => hk.1 (h ▸ List.mem_map_of_mem hx)
      rw [if_neg this]
      exact ih hk.2 hx

theorem substOK_start (hk : (external.map Prod.fst).Nodup) : SubstOK external ps I (external.map fun x => (x.1, .ground x.2)) where
  ground := by
    intro g t h
    obtain ⟨x, -, -, rfl⟩ := get_external g h
    rfl
  given := fun x hx => get_external_mem hk hx
  source := by
    intro g t h
    obtain ⟨x, h1, h2, -⟩ := get_external g h
    exact .inl (h2 ▸ List.mem_map_of_mem h1)
  unique := by
    intro γ hγ g t h
    obtain ⟨x, h1, rfl, rfl⟩ := get_external g h
    exact hγ.1 x h1

theorem values_cons {s : Subst α} {g h : Nat} {t : Tm α} (hg : s.get g = none) (hh : (s.get h).isSome) (γ : Nat → Option α) : values I ((g, t) :: s) γ h = values I s γ h := by
  unfold values
  rw [get_cons, if_neg]
  rintro rfl
  rw [hg] at hh
  cases hh

theorem substOK_step {p : Param α} (hp : p ∈ ps) {s : Subst α} (hs : SubstOK external ps I s) : SubstOK external ps I (substStep s p) := by
  unfold substStep
  split
  · exact hs
  · rename_i hn
    have hnone : s.get p.name = none := by simpa using hn
    split
    · exact hs
    · rename_i e he
      split
      · rename_i hg
        obtain ⟨h1, h2⟩ := (ground_apply hs.ground e).1 hg
        have hnew : p.name ∉ external.map Prod.fst := by
          intro hm
          obtain ⟨x, hx, hxe⟩ := List.mem_map.1 hm
          have := hs.given x hx
          rw [hxe, hnone] at this
          cases this
        have hkeep : ∀ {g : Nat}, (s.get g).isSome → (Subst.get ((p.name, s.apply e) :: s) g).isSome := by
          intro g h
          rw [get_cons]
          split
          · rfl
          · exact h
        refine ⟨fun g t h => ?_, fun x hx => ?_, fun g t h => ?_, fun γ hγ g t h => ?_⟩
        · rw [get_cons] at h
          split at h
          · cases h; exact hg
          · exact hs.ground g t h
        · have hpx : ¬ p.name = x.1 := fun hpx => hnew (by rw [hpx]; exact List.mem_map_of_mem hx)
          rw [get_cons, if_neg hpx, hs.given x hx]
        · rw [get_cons] at h
          split at h
          · rename_i hpg
            cases h
            refine .inr ⟨p, hp, hpg, e, he, ?_, fun h hh => hkeep (h1 h hh)⟩
            rw [eval_apply I hs.ground]
            exact eval_congr I e fun h hh => (values_cons hnone (h1 h hh) _).symm
          · rcases hs.source g t h with h3 | ⟨q, h3, h4, e', h5, h6, h7⟩
            · exact .inl h3
            · refine .inr ⟨q, h3, h4, e', h5, ?_, fun h hh => hkeep (h7 h hh)⟩
              rw [h6]
              exact eval_congr I e' fun h hh => (values_cons hnone (h7 h hh) _).symm
        · rw [get_cons] at h
          split at h
          · rename_i hpg
            cases h
            rw [← hpg, hγ.2 p hp hnew e he, eval_apply I hs.ground]
            refine eval_congr I e fun h hh => ?_
            obtain ⟨t', ht'⟩ := Option.isSome_iff_exists.1 (h1 h hh)
            rw [hs.unique γ hγ h t' ht', values, ht']
          · exact hs.unique γ hγ g t h
      · exact hs

theorem filter_length_le {β : Type} (f : β → Bool) (l : List β) : (l.filter f).length ≤ l.length := List.length_filter_le _ _

theorem substitution_spec (I : Meaning α) (hk : (external.map Prod.fst).Nodup) :
    ∃ s, substitution external ps = some s ∧ SubstOK external ps I s ∧ ∀ p ∈ ps, substStep s p = s := by
  refine untilStable_spec (μ := fun s : Subst α => (ps.filter fun q => decide (¬ (s.get q.name).isSome = true)).length) (fun p hp s => ?_) (fun p hp s hs => substOK_step hp hs) _ _
    (Nat.lt_succ_of_le (filter_length_le _ _)) (substOK_start hk)
  unfold substStep
  split
  · exact .inl rfl
  · rename_i hn
    split
    · exact .inl rfl
    · split
      · refine .inr ⟨rfl, ?_⟩
        refine count_lt (A := fun g => (s.get g).isSome = true) (B := fun g => (Subst.get ((p.name, s.apply _) :: s) g).isSome = true) (fun g hg => ?_) hp (by simpa using hn) ?_
        · rw [get_cons]
          split
          · rfl
          · exact hg
        · rw [get_cons, if_pos rfl]; rfl
      · exact .inl rfl

/-! ## Validation -/

theorem declare_spec {ext : List Nat} {ps : List (Param α)} {definitions defined : List Nat} {errors : List PError} (h : (declare ext ps definitions defined errors).1 = []) :
    errors = [] ∧ (declare ext ps definitions defined errors).2 = (defined, false) ∧ (ps.map Param.name).Nodup ∧ (∀ p ∈ ps, p.name ∉ definitions) ∧
      ∀ p ∈ ps, p.expression = none → p.name ∈ ext := by
  induction ps generalizing definitions defined errors with
  | nil => exact ⟨h, rfl, by simp, by simp, by simp⟩
  | cons p ps ih =>
    rw [declare] at h ⊢
    split at h
    · simp at h
    · rename_i h1
      rw [if_neg h1]
      split at h
      · have := (ih h).1
        simp at this
      · rename_i h2
        rw [if_neg h2]
        obtain ⟨h3, h4, h5, h6, h7⟩ := ih h
        refine ⟨h3, h4, ?_, fun q hq => ?_, fun q hq he => ?_⟩
        · rw [List.map_cons, List.nodup_cons]
          refine ⟨fun hm => ?_, h5⟩
          obtain ⟨q, hq, hqe⟩ := List.mem_map.1 hm
          exact h6 q hq (hqe ▸ List.mem_cons_self)
        · rcases List.mem_cons.1 hq with rfl | hq
          · exact h1
          · exact fun hm => h6 q hq (List.mem_cons_of_mem _ hm)
        · rcases List.mem_cons.1 hq with rfl | hq
          · by_contra hx
            exact h2 ⟨by simp [he], hx⟩
          · exact h7 q hq he

theorem defineStep_spec {defined : List Nat} {p : Param α} : defineStep defined p = defined ∨
    (p.name ∉ defined ∧ defineStep defined p = p.name :: defined ∧ ∃ e, p.expression = some e ∧ ∀ g ∈ e.globals, g ∈ defined) := by
  unfold defineStep
  split
  · exact .inl rfl
  · rename_i h1
    split
    · rename_i e he
      split
      · rename_i h2
        exact .inr ⟨h1, rfl, e, he, by simpa using h2⟩
      · exact .inl rfl
    · exact .inl rfl

/-- `validate_parameters` always ends. -/
theorem validate_ends (ext : List Nat) (ps : List (Param α)) : ∃ es, validateParameters ext ps = some es := by
  unfold validateParameters
  simp only
  split
  · exact ⟨_, rfl⟩
  · obtain ⟨s, h1, -⟩ := untilStable_spec (size := List.length) (step := defineStep) (μ := fun d : List Nat => (ps.filter fun q => decide (¬ q.name ∈ d)).length) (Inv := fun _ => True) (ps := ps)
      (fun p hp d => by
        rcases defineStep_spec (defined := d) (p := p) with h | ⟨h1, h2, -⟩
        · exact .inl h
        · rw [h2]
          exact .inr ⟨rfl, count_lt (A := fun g => g ∈ d) (B := fun g => g ∈ p.name :: d) (fun g hg => List.mem_cons_of_mem _ hg) hp h1 List.mem_cons_self⟩)
      (fun _ _ _ _ => trivial) (ps.length + 1) _ (Nat.lt_succ_of_le (filter_length_le _ _)) trivial
    exact ⟨_, by rw [h1]; rfl⟩

/-- What it means that the declarations are accepted -/
theorem validate_spec {ext : List Nat} {ps : List (Param α)} (h : validateParameters ext ps = some []) :
    (ps.map Param.name).Nodup ∧ (∀ p ∈ ps, p.expression = none → p.name ∈ ext) ∧
    ∀ K : Nat → Prop, (∀ g ∈ ext, K g) → (∀ p ∈ ps, ∀ e, p.expression = some e → (∀ g ∈ e.globals, K g) → K p.name) → ∀ p ∈ ps, K p.name := by
  unfold validateParameters at h
  simp only at h
  have herr : ∀ es : List PError, (∃ d, es = (declare ext ps [] ext []).1 ++ d) → es = [] → (declare ext ps [] ext []).1 = [] := by
    rintro es ⟨d, rfl⟩ h
    exact (List.append_eq_nil_iff.1 h).1
  have h0 : (declare ext ps [] ext []).1 = [] := by
    split at h
    · exact Option.some.inj h
    · obtain ⟨s, -, h2⟩ := Option.map_eq_some_iff.1 h
      split at h2
      · exact herr _ ⟨_, rfl⟩ h2
      · exact h2
  obtain ⟨-, h1, h2, -, h3⟩ := declare_spec h0
  refine ⟨h2, h3, fun K hK hstep p hp => ?_⟩
  have hb : (declare ext ps [] ext []).2.2 = false := by rw [h1]
  have hd : (declare ext ps [] ext []).2.1 = ext := by rw [h1]
  rw [hb, hd] at h
  simp only [Bool.false_eq_true, if_false] at h
  obtain ⟨s, h4, h5⟩ := Option.map_eq_some_iff.1 h
  obtain ⟨s', h6, h7, -⟩ := untilStable_spec (size := List.length) (step := defineStep) (μ := fun d : List Nat => (ps.filter fun q => decide (¬ q.name ∈ d)).length)
      (Inv := fun d => ∀ g ∈ d, K g) (ps := ps)
      (fun p hp d => by
        rcases defineStep_spec (defined := d) (p := p) with h | ⟨h1, h2, -⟩
        · exact .inl h
        · rw [h2]
          exact .inr ⟨rfl, count_lt (A := fun g => g ∈ d) (B := fun g => g ∈ p.name :: d) (fun g hg => List.mem_cons_of_mem _ hg) hp h1 List.mem_cons_self⟩)
      (fun q hq d hd g hg => by
        rcases defineStep_spec (defined := d) (p := q) with h | ⟨-, h2, e, h3, h4⟩
        · rw [h] at hg; exact hd g hg
        · rw [h2] at hg
          rcases List.mem_cons.1 hg with rfl | hg
          · exact hstep q hq e h3 fun g hg => hd g (h4 g hg)
          · exact hd g hg) (ps.length + 1) ext (Nat.lt_succ_of_le (filter_length_le _ _)) hK
  rw [h4] at h6
  cases h6
  cases he : p.expression with
  | none => exact hK _ (h3 p hp he)
  | some e =>
    split at h5
    · simp at h5
    · rename_i hf
      have := List.find?_eq_none.1 hf p hp
      simp only [he, Option.isSome_some, Bool.true_and, decide_eq_true_eq, not_not] at this
      exact h7 _ this

/-! ## The theorem -/

/-- **Accepted declarations have exactly one solution, which the substitution computes.**  `external` is a map, so that its names are different.  The
expressions contain no variables except for global ones. -/
theorem substitution_solution (I : Meaning α) (hk : (external.map Prod.fst).Nodup) (hv : ∀ p ∈ ps, ∀ e, p.expression = some e → e.vars = [])
    (h : validateParameters (external.map Prod.fst) ps = some []) :
    ∃ s, substitution external ps = some s ∧ Grounded s ∧ (∀ p ∈ ps, (s.get p.name).isSome) ∧ Solution I external ps (values I s noValues) ∧
      ∀ γ, Solution I external ps γ → ∀ g, (∃ p ∈ ps, p.name = g) ∨ g ∈ external.map Prod.fst → γ g = values I s noValues g := by
  obtain ⟨s, h1, h2, h3⟩ := substitution_spec (ps := ps) I hk
  obtain ⟨h4, h5, h6⟩ := validate_spec h
  have hext : ∀ g ∈ external.map Prod.fst, (s.get g).isSome := by
    intro g hg
    obtain ⟨x, hx, rfl⟩ := List.mem_map.1 hg
    rw [h2.given x hx]
    rfl
  have hall : ∀ p ∈ ps, (s.get p.name).isSome := by
    refine h6 (fun g => (s.get g).isSome = true) hext fun p hp e he hg => ?_
    by_contra hn
    have h7 := h3 p hp
    have h8 : (s.apply e).isGround = true := (ground_apply h2.ground e).2 ⟨hg, hv p hp e he⟩
    unfold substStep at h7
    rw [if_neg hn, he] at h7
    simp only [h8, if_true] at h7
    have := congrArg List.length h7
    simp at this
  refine ⟨s, h1, h2.ground, hall, ⟨fun x hx => ?_, fun p hp hn e he => ?_⟩, fun γ hγ g hg => ?_⟩
  · rw [values, h2.given x hx]
    rfl
  · obtain ⟨t, ht⟩ := Option.isSome_iff_exists.1 (hall p hp)
    rcases h2.source _ t ht with h7 | ⟨q, h7, h8, e', h9, h10, -⟩
    · exact absurd h7 hn
    · have hqp : q = p := List.inj_on_of_nodup_map h4 h7 hp h8
      subst hqp
      rw [he] at h9
      cases h9
      rw [← h10, values, ht]
  · have hs : (s.get g).isSome := by
      rcases hg with ⟨p, hp, rfl⟩ | hg
      · exact hall p hp
      · exact hext g hg
    obtain ⟨t, ht⟩ := Option.isSome_iff_exists.1 hs
    rw [h2.unique γ hγ g t ht, values, ht]

/-- The terms of a statement -/
def GStmt.terms : GStmt α → List (Tm α)
  | .parameter _ => []
  | .statement ts => ts

/-- **The transformed program is the program in which global variables have their values**: each term of each statement has, for all values of the other
variables, the value that it has in the program under the only solution of the declarations. -/
theorem transform_meaning_partial (I : Meaning α) {ss : List (GStmt α)} (hk : (external.map Prod.fst).Nodup) (hv : ∀ p ∈ parameters ss, ∀ e, p.expression = some e → e.vars = [])
    (h : validateParameters (external.map Prod.fst) (parameters ss) = some []) :
    ∃ ts, transform external ss = some ts ∧ ∀ γ, Solution I external (parameters ss) γ →
      List.Forall₂ (fun a b : GStmt α => ((∃ p, a = .parameter p ∧ b = .parameter p) ∨ ∃ x y, a = .statement x ∧ b = .statement y) ∧
        List.Forall₂ (fun t u => ∀ σ, u.eval I γ σ = t.eval I γ σ ∧
          ((∀ g ∈ t.globals, (∃ p ∈ parameters ss, p.name = g) ∨ g ∈ external.map Prod.fst) → u.globals = [])) a.terms b.terms) ss ts := by
  obtain ⟨s, h1, h2, h3, -, h4⟩ := substitution_solution I hk hv h
  obtain ⟨s', h1', hOK, -⟩ := substitution_spec (ps := parameters ss) I hk
  rw [h1] at h1'
  cases h1'
  refine ⟨_, by rw [transform, h1]; rfl, fun γ hγ => ?_⟩
  have hval : ∀ g, values I s γ g = γ g := by
    intro g
    unfold values
    cases hg : s.get g with
    | none => rfl
    | some t => exact (hOK.unique γ hγ g t hg).symm
  have hglob : ∀ g, (∃ p ∈ parameters ss, p.name = g) ∨ g ∈ external.map Prod.fst → (s.get g).isSome := by
    rintro g (⟨p, hp, rfl⟩ | hg)
    · exact h3 p hp
    · obtain ⟨x, hx, rfl⟩ := List.mem_map.1 hg
      rw [hOK.given x hx]
      rfl
  have htm : ∀ t : Tm α, ∀ σ, (s.apply t).eval I γ σ = t.eval I γ σ := by
    intro t σ
    rw [eval_apply I h2]
    exact eval_congr I t fun g _ => hval g
  have hno := applied_globals h2
  have hsame : ∀ l : List (Tm α), allGlobals l = [] → List.Forall₂ (fun t u => ∀ σ, u.eval I γ σ = t.eval I γ σ ∧
      ((∀ g ∈ t.globals, (∃ p ∈ parameters ss, p.name = g) ∨ g ∈ external.map Prod.fst) → u.globals = [])) l l := by
    intro l
    induction l with
    | nil => exact fun _ => .nil
    | cons t l ih =>
      intro h
      rw [allGlobals, List.append_eq_nil_iff] at h
      exact .cons (fun σ => ⟨rfl, fun _ => h.1⟩) (ih h.2)
  have happly : ∀ l : List (Tm α), List.Forall₂ (fun t u => ∀ σ, u.eval I γ σ = t.eval I γ σ ∧
      ((∀ g ∈ t.globals, (∃ p ∈ parameters ss, p.name = g) ∨ g ∈ external.map Prod.fst) → u.globals = [])) l (s.applyAll l) := by
    intro l
    induction l with
    | nil => exact .nil
    | cons t l ih => exact .cons (fun σ => ⟨htm t σ, fun hg => hno t fun g h => hglob g (hg g h)⟩) ih
  clear h hv hval
  suffices H : ∀ l : List (GStmt α), List.Forall₂ (fun a b : GStmt α => ((∃ p, a = .parameter p ∧ b = .parameter p) ∨ ∃ x y, a = .statement x ∧ b = .statement y) ∧
        List.Forall₂ (fun t u => ∀ σ, u.eval I γ σ = t.eval I γ σ ∧
          ((∀ g ∈ t.globals, (∃ p ∈ parameters ss, p.name = g) ∨ g ∈ external.map Prod.fst) → u.globals = [])) a.terms b.terms) l (l.map (GStmt.apply s)) from H ss
  intro l
  induction l with
  | nil => exact .nil
  | cons a l ih =>
    refine .cons ?_ ih
    cases a with
    | parameter p => exact ⟨.inl ⟨p, rfl, rfl⟩, .nil⟩
    | statement x =>
      rw [GStmt.apply]
      split
      · rename_i he
        exact ⟨.inr ⟨x, x, rfl, rfl⟩, hsame x (by simpa using he)⟩
      · exact ⟨.inr ⟨x, _, rfl, rfl⟩, happly x⟩
where
  ground_globals : ∀ (t : Tm α), t.isGround = true → t.globals = []
    | .global _, h => by simp [Tm.isGround] at h
    | .var _, h => by simp [Tm.isGround] at h
    | .ground _, _ => rfl
    | .op _ args, h => allGround_globals args (by simpa [Tm.isGround] using h)
    | .other _ args, h => allGround_globals args (by simpa [Tm.isGround] using h)
  allGround_globals : ∀ (ts : List (Tm α)), allGround ts = true → allGlobals ts = []
    | [], _ => rfl
    | t :: ts, h => by
      simp only [allGround, Bool.and_eq_true] at h
      rw [allGlobals, ground_globals t h.1, allGround_globals ts h.2]
      rfl
  applied_globals {s : Subst α} (hs : Grounded s) : ∀ (t : Tm α), (∀ g ∈ t.globals, (s.get g).isSome) → (s.apply t).globals = []
    | .global g, h => by
      obtain ⟨t, ht⟩ := Option.isSome_iff_exists.1 (h g (by simp [Tm.globals]))
      rw [Subst.apply, ht]
      exact ground_globals t (hs g t ht)
    | .var _, _ => rfl
    | .ground _, _ => rfl
    | .op _ args, h => applied_allGlobals hs args (by simpa [Tm.globals] using h)
    | .other _ args, h => applied_allGlobals hs args (by simpa [Tm.globals] using h)
  applied_allGlobals {s : Subst α} (hs : Grounded s) : ∀ (ts : List (Tm α)), (∀ g ∈ allGlobals ts, (s.get g).isSome) → allGlobals (s.applyAll ts) = []
    | [], _ => rfl
    | t :: ts, h => by
      rw [Subst.applyAll, allGlobals, applied_globals hs t fun g hg => h g (by simp [allGlobals, hg]), applied_allGlobals hs ts fun g hg => h g (by simp [allGlobals, hg])]
      rfl

end Verif.Glob
