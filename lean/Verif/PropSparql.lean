import Verif.Sparql

/-!
# Renaming the variables of a query

Renaming the variables of a pattern by an injective function renames the variables of its solutions.
-/

set_option linter.unusedSimpArgs false
set_option linter.unusedSectionVars false

namespace Verif.Sq
open Verif
variable {α : Type} {D : Dataset α}

theorem collected_occurring (P : Pat α) {v : SVar} (h : v ∈ collected P) : v ∈ occurring P := by
  induction P with
  | bgp ts => exact h
  | path s k o => exact h
  | join l r ihl ihr => simp only [collected, occurring, List.mem_append] at h ⊢; exact h.imp ihl ihr
  | leftJoin l r ihl ihr => simp only [collected, occurring, List.mem_append] at h ⊢; exact h.imp ihl ihr
  | union l r ihl ihr => simp only [collected, occurring, List.mem_append] at h ⊢; exact h.imp ihl ihr
  | minus l r ihl ihr => simp only [collected, occurring, List.mem_append] at h ⊢; exact h.symm.imp ihl ihr
  | values vs rows => exact h
  | filter vs f inner ih => exact List.mem_append_right _ (ih h)
  | filterExists b p inner _ ih => exact List.mem_append_right _ (ih h)
  | extend inner v vs f ih =>
    simp only [collected, occurring, List.mem_append, List.mem_cons, List.not_mem_nil, or_false] at h ⊢
    exact h.imp ih .inl
  | project inner vs ih => simp only [collected, occurring, List.mem_append] at h ⊢; exact h.imp ih id
  | distinct inner ih => exact ih h

theorem lookup_none_of_not_mem {A B : Type} [BEq A] [LawfulBEq A] (vs : List A) (row : List B) {v : A} (h : v ∉ vs) : (vs.zip row).lookup v = none := by
  induction vs generalizing row with
  | nil => rfl
  | cons w vs ih =>
    cases row with
    | nil => rfl
    | cons b row =>
      have h1 : (v == w) = false := by simpa using fun e : v = w => h (e ▸ List.mem_cons_self)
      rw [List.zip_cons_cons, List.lookup_cons, h1]
      exact ih row fun hm => h (List.mem_cons_of_mem _ hm)

theorem merge_ne_none {μ ν : SMap α} {v : SVar} (h : μ.merge ν v ≠ none) : μ v ≠ none ∨ ν v ≠ none := by
  unfold SMap.merge at h
  by_cases h1 : μ v = none
  · rw [h1, Option.none_or] at h; exact .inr h
  · exact .inl h1

/-- Solutions only have values for the variables that are collected. -/
theorem eval_dom (P : Pat α) {μ : SMap α} (h : eval D P μ) {v : SVar} (hv : μ v ≠ none) : v ∈ collected P := by
  induction P generalizing μ with
  | bgp ts => exact h.2 v hv
  | path s k o => exact h.2 v hv
  | join l r ihl ihr =>
    obtain ⟨μ₁, μ₂, h1, h2, -, rfl⟩ := h
    exact List.mem_append.2 ((merge_ne_none hv).imp (ihl h1) (ihr h2))
  | leftJoin l r ihl ihr =>
    rcases h with ⟨μ₁, μ₂, h1, h2, -, rfl⟩ | ⟨h1, -⟩
    · exact List.mem_append.2 ((merge_ne_none hv).imp (ihl h1) (ihr h2))
    · exact List.mem_append_left _ (ihl h1 hv)
  | union l r ihl ihr => exact List.mem_append.2 (h.imp (ihl · hv) (ihr · hv))
  | minus l r ihl ihr => exact List.mem_append_right _ (ihl h.1 hv)
  | values vs rows =>
    obtain ⟨row, -, rfl⟩ := h
    by_contra hn
    exact hv (by rw [rowMap, lookup_none_of_not_mem vs row hn]; rfl)
  | filter vs f inner ih => exact ih h.1 hv
  | filterExists b p inner _ ih => exact ih h.1 hv
  | extend inner w vs f ih =>
    obtain ⟨μ₀, h1, -, h3⟩ := h
    by_cases hw : v = w
    · subst hw; exact List.mem_append_right _ (List.mem_singleton.2 rfl)
    · rw [h3, if_neg hw] at hv
      exact List.mem_append_left _ (ih h1 hv)
  | project inner vs ih =>
    obtain ⟨μ₀, h1, h2⟩ := h
    by_cases hw : v ∈ vs
    · exact List.mem_append_right _ hw
    · rw [h2, if_neg hw] at hv; exact absurd rfl hv
  | distinct inner ih => exact ih h hv

section
variable (m : SVar → SVar)

theorem STerm.vars_rename (t : STerm α) : (t.rename m).vars = t.vars.map m := by cases t <;> rfl

theorem Triple.vars_rename (t : Triple α) : (t.rename m).vars = t.vars.map m := by
  simp only [Triple.vars, Triple.rename, STerm.vars_rename, List.map_append]

theorem triples_vars_rename (ts : List (Triple α)) : (ts.map (Triple.rename m)).flatMap Triple.vars = (ts.flatMap Triple.vars).map m := by
  induction ts with
  | nil => rfl
  | cons t ts ih => rw [List.map_cons, List.flatMap_cons, List.flatMap_cons, List.map_append, ih, Triple.vars_rename]

theorem collected_rename (P : Pat α) : collected (rename m P) = (collected P).map m := by
  induction P with
  | bgp ts => exact triples_vars_rename m ts
  | path s k o => simp only [rename, collected, STerm.vars_rename, List.map_append]
  | join l r ihl ihr => simp only [rename, collected, ihl, ihr, List.map_append]
  | leftJoin l r ihl ihr => simp only [rename, collected, ihl, ihr, List.map_append]
  | union l r ihl ihr => simp only [rename, collected, ihl, ihr, List.map_append]
  | minus l r ihl ihr => simp only [rename, collected, ihl, ihr, List.map_append]
  | values vs rows => rfl
  | filter vs f inner ih => exact ih
  | filterExists b p inner _ ih => exact ih
  | extend inner v vs f ih => simp only [rename, collected, ih, List.map_append, List.map_cons, List.map_nil]
  | project inner vs ih => simp only [rename, collected, ih, List.map_append]
  | distinct inner ih => exact ih

theorem mem_occurring_rename (P : Pat α) {v : SVar} : v ∈ occurring (rename m P) ↔ ∃ w ∈ occurring P, m w = v := by
  have key : occurring (rename m P) = (occurring P).map m := by
    induction P with
    | bgp ts => exact triples_vars_rename m ts
    | path s k o => simp only [rename, occurring, STerm.vars_rename, List.map_append]
    | join l r ihl ihr => simp only [rename, occurring, ihl, ihr, List.map_append]
    | leftJoin l r ihl ihr => simp only [rename, occurring, ihl, ihr, List.map_append]
    | union l r ihl ihr => simp only [rename, occurring, ihl, ihr, List.map_append]
    | minus l r ihl ihr => simp only [rename, occurring, ihl, ihr, List.map_append]
    | values vs rows => rfl
    | filter vs f inner ih => simp only [rename, occurring, ih, List.map_append]
    | filterExists b p inner ihp ih => simp only [rename, occurring, ih, ihp, List.map_append]
    | extend inner v vs f ih => simp only [rename, occurring, ih, List.map_append, List.map_cons, List.map_nil]
    | project inner vs ih => simp only [rename, occurring, ih, List.map_append]
    | distinct inner ih => exact ih
  rw [key, List.mem_map]

variable (V : List SVar)

/-- `ν` is the solution `μ` with renamed variables. -/
structure Image (μ ν : SMap α) : Prop where
  val : ∀ v ∈ V, ν (m v) = μ v
  dom : ∀ v, v ∉ V → μ v = none
  range : ∀ w, ν w ≠ none → ∃ v ∈ V, m v = w

variable {m V}
variable (hm : ∀ v ∈ V, ∀ w ∈ V, m v = m w → v = w)
include hm

theorem Image.exists_image (μ : SMap α) (h : ∀ v, μ v ≠ none → v ∈ V) : ∃ ν, Image m V μ ν := by
  classical
  refine ⟨fun w => if h : ∃ v ∈ V, m v = w then μ h.choose else none, fun v hv => ?_, fun v hv => ?_, fun w hw => ?_⟩
  · have hex : ∃ v' ∈ V, m v' = m v := ⟨v, hv, rfl⟩
    simp only [dif_pos hex]
    rw [hm _ hex.choose_spec.1 v hv hex.choose_spec.2]
  · by_contra hn; exact hv (h v hn)
  · by_contra hn
    simp only [dif_neg hn] at hw
    exact hw rfl

omit hm in
theorem Image.exists_pre (ν : SMap α) (h : ∀ w, ν w ≠ none → ∃ v ∈ V, m v = w) : ∃ μ, Image m V μ ν := by
  classical
  refine ⟨fun v => if v ∈ V then ν (m v) else none, fun v hv => ?_, fun v hv => ?_, h⟩
  · simp only [if_pos hv]
  · simp only [if_neg hv]

omit hm in
theorem Image.unique {μ μ' ν : SMap α} (h : Image m V μ ν) (h' : Image m V μ' ν) : μ = μ' := by
  funext v
  by_cases hv : v ∈ V
  · rw [← h.val v hv, h'.val v hv]
  · rw [h.dom v hv, h'.dom v hv]

omit hm in
theorem Image.functional {μ ν ν' : SMap α} (h : Image m V μ ν) (h' : Image m V μ ν') : ν = ν' := by
  funext w
  by_cases hw : ∃ v ∈ V, m v = w
  · obtain ⟨v, hv, rfl⟩ := hw
    rw [h.val v hv, h'.val v hv]
  · have h1 : ν w = none := by by_contra hn; exact hw (h.range w hn)
    have h2 : ν' w = none := by by_contra hn; exact hw (h'.range w hn)
    rw [h1, h2]

omit hm in
theorem Image.compat {μ₁ μ₂ ν₁ ν₂ : SMap α} (h1 : Image m V μ₁ ν₁) (h2 : Image m V μ₂ ν₂) : Compat ν₁ ν₂ ↔ Compat μ₁ μ₂ := by
  constructor
  · intro h v a b ha hb
    by_cases hv : v ∈ V
    · exact h (m v) a b (by rw [h1.val v hv, ha]) (by rw [h2.val v hv, hb])
    · rw [h1.dom v hv] at ha; cases ha
  · intro h w a b ha hb
    obtain ⟨v, hv, rfl⟩ := h1.range w (by rw [ha]; exact Option.some_ne_none _)
    exact h v a b (by rw [← h1.val v hv, ha]) (by rw [← h2.val v hv, hb])

omit hm in
theorem Image.merge {μ₁ μ₂ ν₁ ν₂ : SMap α} (h1 : Image m V μ₁ ν₁) (h2 : Image m V μ₂ ν₂) : Image m V (μ₁.merge μ₂) (ν₁.merge ν₂) := by
  refine ⟨fun v hv => ?_, fun v hv => ?_, fun w hw => ?_⟩
  · simp only [SMap.merge, h1.val v hv, h2.val v hv]
  · simp only [SMap.merge, h1.dom v hv, h2.dom v hv, Option.or_none]
  · exact (merge_ne_none hw).elim (h1.range w) (h2.range w)

omit hm in
theorem Image.term {μ ν : SMap α} (h : Image m V μ ν) (t : STerm α) (ht : ∀ v ∈ t.vars, v ∈ V) : (t.rename m).value ν = t.value μ := by
  cases t with
  | var v => exact h.val v (ht v (List.mem_singleton.2 rfl))
  | const a => rfl

omit hm in
theorem Image.list {μ ν : SMap α} (h : Image m V μ ν) (vs : List SVar) (hv : ∀ v ∈ vs, v ∈ V) : (vs.map m).map ν = vs.map μ := by
  rw [List.map_map]
  exact List.map_congr_left fun v hv' => h.val v (hv v hv')

omit hm in
theorem range_rename {P : Pat α} (hP : ∀ v ∈ occurring P, v ∈ V) {ν : SMap α} (h : eval D (rename m P) ν) : ∀ w, ν w ≠ none → ∃ v ∈ V, m v = w := by
  intro w hw
  have := eval_dom _ h hw
  rw [collected_rename] at this
  obtain ⟨v, hv, rfl⟩ := List.mem_map.1 this
  exact ⟨v, hP v (collected_occurring P hv), rfl⟩

omit hm in
theorem dom_eval {P : Pat α} (hP : ∀ v ∈ occurring P, v ∈ V) {μ : SMap α} (h : eval D P μ) : ∀ v, μ v ≠ none → v ∈ V :=
  fun v hv => hP v (collected_occurring P (eval_dom _ h hv))

theorem image_mem {v : SVar} (hv : v ∈ V) {ts : List SVar} (hts : ∀ w ∈ ts, w ∈ V) : m v ∈ ts.map m ↔ v ∈ ts := by
  rw [List.mem_map]
  constructor
  · rintro ⟨w, hw, h⟩; exact hm w (hts w hw) v hv h ▸ hw
  · exact fun h => ⟨v, h, rfl⟩

theorem lookup_map (vs : List SVar) {B : Type} (row : List B) (hvs : ∀ v ∈ vs, v ∈ V) {v : SVar} (hv : v ∈ V) :
    ((vs.map m).zip row).lookup (m v) = (vs.zip row).lookup v := by
  induction vs generalizing row with
  | nil => rfl
  | cons w vs ih =>
    cases row with
    | nil => rfl
    | cons b row =>
      rw [List.map_cons, List.zip_cons_cons, List.zip_cons_cons, List.lookup_cons, List.lookup_cons,
        ih row fun v hv => hvs v (List.mem_cons_of_mem _ hv)]
      by_cases h : v = w
      · subst h; simp
      · have h1 : (v == w) = false := by simpa using h
        have h2 : (m v == m w) = false := by simpa using fun e => h (hm v hv w (hvs w List.mem_cons_self) e)
        rw [h1, h2]

theorem Image.rowMap (vs : List SVar) (row : List (Option α)) (hvs : ∀ v ∈ vs, v ∈ V) : Image m V (rowMap vs row) (rowMap (vs.map m) row) := by
  refine ⟨fun v hv => ?_, fun v hv => ?_, fun w hw => ?_⟩
  · rw [Sq.rowMap, Sq.rowMap, lookup_map hm vs row hvs hv]
  · rw [Sq.rowMap, lookup_none_of_not_mem _ _ fun h => hv (hvs v h)]; rfl
  · by_cases h : w ∈ vs.map m
    · obtain ⟨v, hv, rfl⟩ := List.mem_map.1 h
      exact ⟨v, hvs v hv, rfl⟩
    · exact absurd (by rw [Sq.rowMap, lookup_none_of_not_mem _ _ h]; rfl) hw

/-- **Renaming the variables of a pattern renames those of its solutions.** -/
theorem eval_rename (P : Pat α) (hP : ∀ v ∈ occurring P, v ∈ V) {μ ν : SMap α} (h : Image m V μ ν) : eval D (rename m P) ν ↔ eval D P μ := by
  induction P generalizing μ ν with
  | bgp ts =>
    simp only [rename, eval, occurring] at hP ⊢
    refine and_congr ?_ ?_
    · constructor
      · intro h1 t ht
        obtain ⟨s, p, o, hs, hp, ho, hd⟩ := h1 _ (List.mem_map_of_mem ht)
        have hv : ∀ v ∈ t.vars, v ∈ V := fun v hv => hP v (List.mem_flatMap.2 ⟨t, ht, hv⟩)
        simp only [Triple.vars, List.mem_append] at hv
        exact ⟨s, p, o, (h.term t.s fun v hx => hv v (.inl (.inl hx))) ▸ hs, (h.term t.p fun v hx => hv v (.inl (.inr hx))) ▸ hp,
          (h.term t.o fun v hx => hv v (.inr hx)) ▸ ho, hd⟩
      · intro h1 t' ht'
        obtain ⟨t, ht, rfl⟩ := List.mem_map.1 ht'
        obtain ⟨s, p, o, hs, hp, ho, hd⟩ := h1 t ht
        have hv : ∀ v ∈ t.vars, v ∈ V := fun v hv => hP v (List.mem_flatMap.2 ⟨t, ht, hv⟩)
        simp only [Triple.vars, List.mem_append] at hv
        exact ⟨s, p, o, (h.term t.s fun v hx => hv v (.inl (.inl hx))).trans hs, (h.term t.p fun v hx => hv v (.inl (.inr hx))).trans hp,
          (h.term t.o fun v hx => hv v (.inr hx)).trans ho, hd⟩
    · rw [triples_vars_rename]
      constructor
      · intro h1 v hv
        have hV : v ∈ V := by by_contra hn; exact hv (h.dom v hn)
        exact (image_mem hm hV hP).1 (h1 (m v) (by rwa [h.val v hV]))
      · intro h1 w hw
        obtain ⟨v, hv, rfl⟩ := h.range w hw
        exact (image_mem hm hv hP).2 (h1 v (by rwa [← h.val v hv]))
  | path s k o =>
    simp only [rename, eval, occurring] at hP ⊢
    rw [h.term s fun v hv => hP v (List.mem_append_left _ hv), h.term o fun v hv => hP v (List.mem_append_right _ hv), STerm.vars_rename,
      STerm.vars_rename, ← List.map_append]
    refine and_congr Iff.rfl ?_
    constructor
    · intro h1 v hv
      have hV : v ∈ V := by by_contra hn; exact hv (h.dom v hn)
      exact (image_mem hm hV hP).1 (h1 (m v) (by rwa [h.val v hV]))
    · intro h1 w hw
      obtain ⟨v, hv, rfl⟩ := h.range w hw
      exact (image_mem hm hv hP).2 (h1 v (by rwa [← h.val v hv]))
  | join l r ihl ihr =>
    have hl : ∀ v ∈ occurring l, v ∈ V := fun v hv => hP v (List.mem_append_left _ hv)
    have hr : ∀ v ∈ occurring r, v ∈ V := fun v hv => hP v (List.mem_append_right _ hv)
    constructor
    · rintro ⟨ν₁, ν₂, h1, h2, h3, rfl⟩
      obtain ⟨μ₁, g1⟩ := Image.exists_pre ν₁ (range_rename hl h1)
      obtain ⟨μ₂, g2⟩ := Image.exists_pre ν₂ (range_rename hr h2)
      exact ⟨μ₁, μ₂, (ihl hl g1).1 h1, (ihr hr g2).1 h2, (g1.compat g2).1 h3, h.unique (g1.merge g2)⟩
    · rintro ⟨μ₁, μ₂, h1, h2, h3, rfl⟩
      obtain ⟨ν₁, g1⟩ := Image.exists_image hm μ₁ (dom_eval hl h1)
      obtain ⟨ν₂, g2⟩ := Image.exists_image hm μ₂ (dom_eval hr h2)
      exact ⟨ν₁, ν₂, (ihl hl g1).2 h1, (ihr hr g2).2 h2, (g1.compat g2).2 h3, h.functional (g1.merge g2)⟩
  | leftJoin l r ihl ihr =>
    have hl : ∀ v ∈ occurring l, v ∈ V := fun v hv => hP v (List.mem_append_left _ hv)
    have hr : ∀ v ∈ occurring r, v ∈ V := fun v hv => hP v (List.mem_append_right _ hv)
    refine or_congr ?_ (and_congr (ihl hl h) ?_)
    · constructor
      · rintro ⟨ν₁, ν₂, h1, h2, h3, rfl⟩
        obtain ⟨μ₁, g1⟩ := Image.exists_pre ν₁ (range_rename hl h1)
        obtain ⟨μ₂, g2⟩ := Image.exists_pre ν₂ (range_rename hr h2)
        exact ⟨μ₁, μ₂, (ihl hl g1).1 h1, (ihr hr g2).1 h2, (g1.compat g2).1 h3, h.unique (g1.merge g2)⟩
      · rintro ⟨μ₁, μ₂, h1, h2, h3, rfl⟩
        obtain ⟨ν₁, g1⟩ := Image.exists_image hm μ₁ (dom_eval hl h1)
        obtain ⟨ν₂, g2⟩ := Image.exists_image hm μ₂ (dom_eval hr h2)
        exact ⟨ν₁, ν₂, (ihl hl g1).2 h1, (ihr hr g2).2 h2, (g1.compat g2).2 h3, h.functional (g1.merge g2)⟩
    · constructor
      · intro h1 μ₂ h2
        obtain ⟨ν₂, g2⟩ := Image.exists_image hm μ₂ (dom_eval hr h2)
        exact fun h3 => h1 ν₂ ((ihr hr g2).2 h2) ((h.compat g2).2 h3)
      · intro h1 ν₂ h2
        obtain ⟨μ₂, g2⟩ := Image.exists_pre ν₂ (range_rename hr h2)
        exact fun h3 => h1 μ₂ ((ihr hr g2).1 h2) ((h.compat g2).1 h3)
  | union l r ihl ihr =>
    exact or_congr (ihl (fun v hv => hP v (List.mem_append_left _ hv)) h) (ihr (fun v hv => hP v (List.mem_append_right _ hv)) h)
  | minus l r ihl ihr =>
    have hl : ∀ v ∈ occurring l, v ∈ V := fun v hv => hP v (List.mem_append_left _ hv)
    have hr : ∀ v ∈ occurring r, v ∈ V := fun v hv => hP v (List.mem_append_right _ hv)
    refine and_congr (ihl hl h) ?_
    have hd : ∀ {μ₂ ν₂ : SMap α}, Image m V μ₂ ν₂ → ((∃ v, ν v ≠ none ∧ ν₂ v ≠ none) ↔ ∃ v, μ v ≠ none ∧ μ₂ v ≠ none) := by
      intro μ₂ ν₂ g
      constructor
      · rintro ⟨w, h1, h2⟩
        obtain ⟨v, hv, rfl⟩ := h.range w h1
        exact ⟨v, by rwa [← h.val v hv], by rwa [← g.val v hv]⟩
      · rintro ⟨v, h1, h2⟩
        have hv : v ∈ V := by by_contra hn; exact h1 (h.dom v hn)
        exact ⟨m v, by rwa [h.val v hv], by rwa [g.val v hv]⟩
    constructor
    · intro h1 μ₂ h2
      obtain ⟨ν₂, g2⟩ := Image.exists_image hm μ₂ (dom_eval hr h2)
      exact fun h3 => h1 ν₂ ((ihr hr g2).2 h2) ⟨(h.compat g2).2 h3.1, (hd g2).2 h3.2⟩
    · intro h1 ν₂ h2
      obtain ⟨μ₂, g2⟩ := Image.exists_pre ν₂ (range_rename hr h2)
      exact fun h3 => h1 μ₂ ((ihr hr g2).1 h2) ⟨(h.compat g2).1 h3.1, (hd g2).1 h3.2⟩
  | values vs rows =>
    constructor
    · rintro ⟨row, hr, rfl⟩
      exact ⟨row, hr, h.unique (Image.rowMap hm vs row hP)⟩
    · rintro ⟨row, hr, rfl⟩
      exact ⟨row, hr, h.functional (Image.rowMap hm vs row hP)⟩
  | filter vs f inner ih =>
    refine and_congr (ih (fun v hv => hP v (List.mem_append_right _ hv)) h) ?_
    rw [h.list vs fun v hv => hP v (List.mem_append_left _ hv)]
  | filterExists b p inner ihp ih =>
    have hp : ∀ v ∈ occurring p, v ∈ V := fun v hv => hP v (List.mem_append_left _ hv)
    refine and_congr (ih (fun v hv => hP v (List.mem_append_right _ hv)) h) (iff_congr Iff.rfl ?_)
    constructor
    · rintro ⟨ν₂, h2, h3⟩
      obtain ⟨μ₂, g2⟩ := Image.exists_pre ν₂ (range_rename hp h2)
      exact ⟨μ₂, (ihp hp g2).1 h2, (h.compat g2).1 h3⟩
    · rintro ⟨μ₂, h2, h3⟩
      obtain ⟨ν₂, g2⟩ := Image.exists_image hm μ₂ (dom_eval hp h2)
      exact ⟨ν₂, (ihp hp g2).2 h2, (h.compat g2).2 h3⟩
  | extend inner v vs f ih =>
    have hi : ∀ w ∈ occurring inner, w ∈ V := fun w hw => hP w (List.mem_append_left _ hw)
    have hv : v ∈ V := hP v (List.mem_append_right _ List.mem_cons_self)
    have hvs : ∀ w ∈ vs, w ∈ V := fun w hw => hP w (List.mem_append_right _ (List.mem_cons_of_mem _ hw))
    constructor
    · rintro ⟨ν₀, h1, h2, h3⟩
      obtain ⟨μ₀, g⟩ := Image.exists_pre ν₀ (range_rename hi h1)
      refine ⟨μ₀, (ih hi g).1 h1, by rw [← g.val v hv, h2], fun w => ?_⟩
      by_cases hw : w ∈ V
      · rw [← h.val w hw, h3, g.list vs hvs, g.val w hw]
        by_cases he : w = v
        · subst he; rw [if_pos rfl, if_pos rfl]
        · rw [if_neg he, if_neg fun e => he (hm w hw v hv e)]
      · rw [h.dom w hw, if_neg (fun e : w = v => hw (e ▸ hv)), g.dom w hw]
    · rintro ⟨μ₀, h1, h2, h3⟩
      obtain ⟨ν₀, g⟩ := Image.exists_image hm μ₀ (dom_eval hi h1)
      refine ⟨ν₀, (ih hi g).2 h1, by rw [g.val v hv, h2], fun w => ?_⟩
      by_cases hw : ∃ u ∈ V, m u = w
      · obtain ⟨u, hu, rfl⟩ := hw
        rw [h.val u hu, h3, g.list vs hvs, g.val u hu]
        by_cases he : u = v
        · subst he; rw [if_pos rfl, if_pos rfl]
        · rw [if_neg he, if_neg fun e => he (hm u hu v hv e)]
      · have n1 : ν w = none := by by_contra hn; exact hw (h.range w hn)
        have n2 : ν₀ w = none := by by_contra hn; exact hw (g.range w hn)
        rw [n1, if_neg fun e => hw ⟨v, hv, e.symm⟩, n2]
  | project inner vs ih =>
    have hi : ∀ w ∈ occurring inner, w ∈ V := fun w hw => hP w (List.mem_append_left _ hw)
    have hvs : ∀ w ∈ vs, w ∈ V := fun w hw => hP w (List.mem_append_right _ hw)
    constructor
    · rintro ⟨ν₀, h1, h2⟩
      obtain ⟨μ₀, g⟩ := Image.exists_pre ν₀ (range_rename hi h1)
      refine ⟨μ₀, (ih hi g).1 h1, fun w => ?_⟩
      by_cases hw : w ∈ V
      · rw [← h.val w hw, h2, g.val w hw]
        by_cases he : w ∈ vs
        · rw [if_pos he, if_pos ((image_mem hm hw hvs).2 he)]
        · rw [if_neg he, if_neg fun e => he ((image_mem hm hw hvs).1 e)]
      · rw [h.dom w hw, g.dom w hw, ite_self]
    · rintro ⟨μ₀, h1, h2⟩
      obtain ⟨ν₀, g⟩ := Image.exists_image hm μ₀ (dom_eval hi h1)
      refine ⟨ν₀, (ih hi g).2 h1, fun w => ?_⟩
      by_cases hw : ∃ u ∈ V, m u = w
      · obtain ⟨u, hu, rfl⟩ := hw
        rw [h.val u hu, h2, g.val u hu]
        by_cases he : u ∈ vs
        · rw [if_pos he, if_pos ((image_mem hm hu hvs).2 he)]
        · rw [if_neg he, if_neg fun e => he ((image_mem hm hu hvs).1 e)]
      · have n1 : ν w = none := by by_contra hn; exact hw (h.range w hn)
        have n2 : ν₀ w = none := by by_contra hn; exact hw (g.range w hn)
        rw [n1, n2, ite_self]
  | distinct inner ih => exact ih hP h

end
end Verif.Sq
