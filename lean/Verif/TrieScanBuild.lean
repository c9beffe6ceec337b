import Verif.TreeRows


/-!
# Materializing a partial trie scan

Model of `Trie::from_partial_trie_scan` (/repo/nemo-physical/src/tabular/trie.rs:258-327): the rows
returned by a row scan are written into one builder per layer, using the information which layers
have changed since the previous row.  `Trie.fromScanRows_rep`: the result represents the rows.
-/

set_option linter.unusedSimpArgs false
set_option linter.unusedSectionVars false

namespace Verif
variable {α : Type} [SVal α]

/-- The builders after the first row (trie.rs:281-290). -/
def firstBuilders : Option Ty → List α → List (TBuilder α)
  | _, [] => []
  | o, v :: vs => (TBuilder.new o).addValue v :: firstBuilders (some (ty v)) vs

/-- The loop over the layers for a later row (trie.rs:300-317): layers before `change` are skipped,
`layer` is the layer of the first builder in the list, `last` is `last_type`. -/
def scanRow (change : Nat) : Nat → Ty → List (TBuilder α) → List α → List (TBuilder α)
  | layer, last, b :: bs, v :: vs =>
    if layer < change then b :: scanRow change (layer + 1) last bs vs
    else (if layer ≠ change then b.finishInterval last else b).addValue v ::
      scanRow change (layer + 1) (ty v) bs vs
  | _, _, bs, _ => bs

/-- `from_partial_trie_scan` (trie.rs:258-327) applied to the rows of the row scan. -/
def Trie.fromScanRows (numColumns : Nat) (rows : List (List α × Nat)) : Trie α :=
  if numColumns = 0 then Trie.zeroArity true
  else match rows with
    | [] => Trie.empty numColumns
    | (r, _) :: rest =>
      ⟨(rest.foldl (fun bs x => scanRow x.2 0 0 bs x.1) (firstBuilders none r)).map TBuilder.finalize,
        false⟩

/-! ## Levels of sorted rows -/

theorem mem_level {R : List (List α)} {k : Nat} {p : List α} :
    p ∈ level R k ↔ p.length = k ∧ (k = 0 ∨ ∃ s, p ++ s ∈ R) := by
  induction k generalizing p with
  | zero => simp [level, List.length_eq_zero_iff]
  | succ k ih =>
    rw [level, List.mem_flatMap]
    constructor
    · rintro ⟨q, hq, hp⟩
      obtain ⟨a, ha, rfl⟩ := List.mem_map.mp hp
      obtain ⟨r, hr⟩ := mem_keys.mp ha
      refine ⟨by simp [(ih.mp hq).1], .inr ⟨r, ?_⟩⟩
      simpa using mem_subs.mp hr
    · rintro ⟨hl, h | ⟨s, hs⟩⟩
      · omega
      · have hne : p ≠ [] := by intro h; subst h; simp at hl
        refine ⟨p.dropLast, ih.mpr ⟨by simp [hl], .inr ⟨p.getLast hne :: s, ?_⟩⟩, ?_⟩
        · rw [List.append_cons, List.dropLast_concat_getLast]; exact hs
        · refine List.mem_map.mpr ⟨p.getLast hne, mem_keys.mpr ⟨s, mem_subs.mpr ?_⟩,
            List.dropLast_concat_getLast hne⟩
          rw [List.append_cons, List.dropLast_concat_getLast]; exact hs

theorem append_lt_append_of_lt (p : List α) {a b : α} (h : a < b) (u v : List α) :
    p ++ a :: u < p ++ b :: v := by
  induction p with
  | nil => exact List.cons_lt_cons_iff.mpr (.inl h)
  | cons z p ih => exact List.cons_lt_cons_iff.mpr (.inr ⟨rfl, ih⟩)

theorem append_lt_append_of_length {p q : List α} (hl : p.length = q.length) (h : p < q)
    (u v : List α) : p ++ u < q ++ v := by
  induction p generalizing q with
  | nil =>
    cases q with
    | nil => exact absurd h (lt_irrefl _)
    | cons => simp at hl
  | cons a p ih =>
    cases q with
    | nil => simp at hl
    | cons b q =>
      rcases List.cons_lt_cons_iff.mp h with h | ⟨h, h'⟩
      · exact List.cons_lt_cons_iff.mpr (.inl h)
      · exact List.cons_lt_cons_iff.mpr (.inr ⟨h, ih (by simpa using hl) h'⟩)

theorem level_sorted {R : List (List α)} (hs : SortedRows R) (k : Nat) :
    (level R k).Pairwise (· < ·) := by
  induction k with
  | zero => simp [level]
  | succ k ih =>
    rw [level, List.pairwise_flatMap]
    constructor
    · intro p _
      rw [List.pairwise_map]
      exact (keys_asc (sorted_subs hs p)).imp (fun h => append_lt_append_of_lt p h [] [])
    · have hl : ∀ p ∈ level R k, p.length = k := fun p hp => (mem_level.mp hp).1
      refine List.Pairwise.imp_of_mem ?_ ih
      intro p q hp hq hpq x hx y hy
      obtain ⟨a, _, rfl⟩ := List.mem_map.mp hx
      obtain ⟨b, _, rfl⟩ := List.mem_map.mp hy
      exact append_lt_append_of_length (by rw [hl p hp, hl q hq]) hpq _ _

theorem take_le_take {s z : List α} (h : s ≤ z) (k : Nat) : s.take k ≤ z.take k := by
  induction k generalizing s z with
  | zero => simp
  | succ k ih =>
    cases s with
    | nil => exact nil_le' _
    | cons a s =>
      cases z with
      | nil => exact absurd h (by simp)
      | cons b z =>
        rcases cons_le_cons_iff'.mp h with h | ⟨h, h'⟩
        · exact cons_le_cons_iff'.mpr (.inl h)
        · exact cons_le_cons_iff'.mpr (.inr ⟨h, ih h'⟩)

theorem take_eq_of_le_cpl {z r : List α} {k : Nat} (h : k ≤ cpl z r) : z.take k = r.take k := by
  induction z generalizing r k with
  | nil => simp [cpl] at h; subst h; simp
  | cons a z ih =>
    cases r with
    | nil => simp [cpl] at h; subst h; simp
    | cons b r =>
      rw [cpl] at h
      split at h
      · next hab =>
        subst hab
        cases k with
        | zero => simp
        | succ k => simp [ih (Nat.le_of_succ_le_succ h)]
      · have : k = 0 := by omega
        subst this; simp

theorem take_ne_of_cpl_lt {z r : List α} {k : Nat} (hz : k ≤ z.length) (h : cpl z r < k) :
    z.take k ≠ r.take k := by
  induction z generalizing r k with
  | nil => simp at hz; omega
  | cons a z ih =>
    cases k with
    | zero => omega
    | succ k =>
      cases r with
      | nil => simp
      | cons b r =>
        rw [cpl] at h
        split at h
        · next hab =>
          subst hab
          have := ih (r := r) (k := k) (by simpa using hz) (by omega)
          simpa using this
        · next hab => simp [hab]

theorem cpl_lt_length {z r : List α} (hl : z.length = r.length) (hne : z ≠ r) : cpl z r < r.length := by
  by_contra h
  have := take_eq_of_le_cpl (z := z) (r := r) (k := r.length) (by omega)
  rw [← hl, List.take_length, hl, List.take_length] at this
  exact hne this

theorem take_append_drop_cons {r : List α} {k : Nat} {a : α} (ha : r[k]? = some a) :
    r = r.take k ++ a :: r.drop (k + 1) := by
  obtain ⟨h, rfl⟩ := List.getElem?_eq_some_iff.mp ha
  rw [← List.drop_eq_getElem_cons h, List.take_append_drop]

theorem append_eq_take {r p : List α} {k : Nat} (hp : p.length = k) {s : List α} (h : p ++ s = r) :
    p = r.take k := by rw [← h, ← hp, List.take_left']; rfl

/-! ## One more row -/

/-- what a later row adds to the input of the builder of a layer -/
def groupStep (k change : Nat) (prev : Ty) (a : α) (G : List (Ty × List α)) : List (Ty × List α) :=
  if k < change then G
  else if k = change then
    match G.getLast? with
    | some g => G.dropLast ++ [(g.1, g.2 ++ [a])]
    | none => G
  else G ++ [(prev, [a])]

theorem gen_congr {R S : List (List α)} {L : List (List α)}
    (h : ∀ p ∈ L, keys (subs R p) = keys (subs S p)) : gen R L = gen S L := by
  unfold gen
  exact List.map_congr_left (fun p hp => by rw [h p hp])

theorem gen_snoc {R : List (List α)} {m : Nat} {z r : List α} (hs : SortedRows (R ++ [z] ++ [r]))
    (hl : ∀ x ∈ R ++ [z] ++ [r], x.length = m) (hne : z ≠ r) {k : Nat} {a : α} (ha : r[k]? = some a) :
    gen (R ++ [z] ++ [r]) (level (R ++ [z] ++ [r]) k) =
      groupStep k (cpl z r) (lastTy (r.take k)) a (gen (R ++ [z]) (level (R ++ [z]) k)) := by
  obtain ⟨hs1, _, hs2⟩ := List.pairwise_append.mp hs
  have hzr : z < r := lt_of_le_of_ne (hs2 z (by simp) r (by simp)) hne
  have hxz : ∀ x ∈ R ++ [z], x ≤ z := by
    intro x hx
    rcases List.mem_append.mp hx with h | h
    · exact (List.pairwise_append.mp hs1).2.2 x h z (by simp)
    · rw [List.mem_singleton.mp h]
  have hzl : z.length = m := hl z (by simp)
  have hrl : r.length = m := hl r (by simp)
  have hkm : k < m := by
    obtain ⟨h, _⟩ := List.getElem?_eq_some_iff.mp ha; omega
  have hrk := take_append_drop_cons ha
  have hrkl : (r.take k).length = k := by simp; omega
  -- children of the other nodes
  have hother : ∀ p, p.length = k → p ≠ r.take k →
      keys (subs (R ++ [z] ++ [r]) p) = keys (subs (R ++ [z]) p) := by
    intro p hp hpr
    refine asc_ext (keys_asc (sorted_subs hs p)) (keys_asc (sorted_subs hs1 p)) fun b => ?_
    simp only [mem_keys, mem_subs]
    constructor
    · rintro ⟨t, ht⟩
      rcases List.mem_append.mp ht with h | h
      · exact ⟨t, h⟩
      · exact absurd (append_eq_take hp (List.mem_singleton.mp h)) hpr
    · rintro ⟨t, ht⟩; exact ⟨t, List.mem_append_left _ ht⟩
  unfold groupStep
  by_cases hkc : k ≤ cpl z r
  · have htk : z.take k = r.take k := take_eq_of_le_cpl hkc
    have hlev : level (R ++ [z] ++ [r]) k = level (R ++ [z]) k := by
      refine asc_ext (level_sorted hs k) (level_sorted hs1 k) fun p => ?_
      simp only [mem_level]
      refine and_congr_right fun hp => or_congr_right ⟨?_, ?_⟩
      · rintro ⟨t, ht⟩
        rcases List.mem_append.mp ht with h | h
        · exact ⟨t, h⟩
        · have := append_eq_take hp (List.mem_singleton.mp h)
          refine ⟨z.drop k, List.mem_append_right _ ?_⟩
          rw [this, ← htk, List.take_append_drop]; simp
      · rintro ⟨t, ht⟩; exact ⟨t, List.mem_append_left _ ht⟩
    rw [hlev]
    by_cases hlt : k < cpl z r
    · rw [if_pos hlt]
      refine gen_congr fun p hp => ?_
      by_cases hpr : p = r.take k
      · refine asc_ext (keys_asc (sorted_subs hs p)) (keys_asc (sorted_subs hs1 p)) fun b => ?_
        simp only [mem_keys, mem_subs]
        constructor
        · rintro ⟨t, ht⟩
          rcases List.mem_append.mp ht with h | h
          · exact ⟨t, h⟩
          · have h := List.mem_singleton.mp h
            have hb : p ++ [b] = r.take (k + 1) :=
              append_eq_take (s := t) (by simp [hpr]; omega) (by simpa using h)
            rw [← take_eq_of_le_cpl hlt] at hb
            refine ⟨z.drop (k + 1), List.mem_append_right _ ?_⟩
            rw [List.append_cons, hb, List.take_append_drop]; simp
        · rintro ⟨t, ht⟩; exact ⟨t, List.mem_append_left _ ht⟩
      · exact hother p (mem_level.mp hp).1 hpr
    · rw [if_neg hlt, if_pos (by omega)]
      -- the last node is the one of the new row
      obtain ⟨L, hL⟩ : ∃ L, level (R ++ [z]) k = L ++ [r.take k] := by
        have hmem : r.take k ∈ level (R ++ [z]) k := by
          rw [mem_level]
          refine ⟨hrkl, .inr ⟨z.drop k, List.mem_append_right _ ?_⟩⟩
          rw [← htk, List.take_append_drop]; simp
        obtain ⟨A, B, hAB⟩ := List.append_of_mem hmem
        refine ⟨A, ?_⟩
        cases B with
        | nil => exact hAB
        | cons y B =>
          exfalso
          have hsort := level_sorted hs1 k
          have hy : y ∈ level (R ++ [z]) k := by rw [hAB]; simp
          rw [hAB] at hsort
          have hlt' := (List.pairwise_cons.mp (List.pairwise_append.mp hsort).2.1).1 y (by simp)
          obtain ⟨hyl, h0 | ⟨t, ht⟩⟩ := mem_level.mp hy
          · subst h0
            rw [List.length_eq_zero_iff.mp hyl] at hlt'
            simp at hlt'
          · have := take_le_take (hxz _ ht) k
            rw [← hyl, List.take_left' rfl, hyl, htk] at this
            exact absurd hlt' (not_lt.mpr this)
      have hLne : ∀ p ∈ L, p ≠ r.take k := by
        intro p hp hpr
        have hsort := level_sorted hs1 k
        rw [hL] at hsort
        have := (List.pairwise_append.mp hsort).2.2 p hp (r.take k) (by simp)
        rw [hpr] at this
        exact absurd this (lt_irrefl _)
      have hLl : ∀ p ∈ L, p.length = k := by
        intro p hp
        have : p ∈ level (R ++ [z]) k := by rw [hL]; simp [hp]
        exact (mem_level.mp this).1
      have hkeys : keys (subs (R ++ [z] ++ [r]) (r.take k)) =
          keys (subs (R ++ [z]) (r.take k)) ++ [a] := by
        refine asc_ext (keys_asc (sorted_subs hs _)) ?_ fun b => ?_
        · refine List.pairwise_append.mpr ⟨keys_asc (sorted_subs hs1 _), by simp, ?_⟩
          intro b hb a' ha'
          rw [List.mem_singleton.mp ha']
          obtain ⟨t, ht⟩ := mem_keys.mp hb
          have ht := mem_subs.mp ht
          have h1 := take_le_take (hxz _ ht) (k + 1)
          have h2 : (r.take k ++ b :: t).take (k + 1) = r.take k ++ [b] := by
            rw [List.append_cons, List.take_left' (by simp [hrkl])]
          have h3 : z.take (k + 1) < r.take (k + 1) :=
            lt_of_le_of_ne (take_le_take hzr.le _)
              (take_ne_of_cpl_lt (by omega) (by omega))
          have h4 : r.take (k + 1) = r.take k ++ [a] := by
            rw [List.take_add_one, ha]; rfl
          rw [h2] at h1
          rw [h4] at h3
          have h5 := lt_of_le_of_lt h1 h3
          by_contra hba
          rcases lt_or_eq_of_le (not_lt.mp hba) with h | h
          · exact absurd (append_lt_append_of_lt (r.take k) h [] []) (not_lt.mpr h5.le)
          · rw [h] at h5; exact absurd h5 (lt_irrefl _)
        · simp only [mem_keys, mem_subs, List.mem_append, List.mem_singleton]
          constructor
          · rintro ⟨t, ht | ht⟩
            · exact .inl ⟨t, ht⟩
            · right
              have := List.append_cancel_left (ht.trans hrk)
              exact (List.cons.inj this).1
          · rintro (⟨t, ht⟩ | rfl)
            · exact ⟨t, .inl ht⟩
            · exact ⟨r.drop (k + 1), .inr hrk.symm⟩
      have hG : gen (R ++ [z]) (level (R ++ [z]) k) =
          gen (R ++ [z]) L ++ [(lastTy (r.take k), keys (subs (R ++ [z]) (r.take k)))] := by
        rw [hL, gen_append]; rfl
      have hG' : gen (R ++ [z] ++ [r]) (level (R ++ [z]) k) =
          gen (R ++ [z]) L ++ [(lastTy (r.take k), keys (subs (R ++ [z]) (r.take k)) ++ [a])] := by
        rw [hL, gen_append, gen_congr (fun p hp => hother p (hLl p hp) (hLne p hp))]
        simp only [gen, List.map_cons, List.map_nil, hkeys]
      rw [hG, hG']
      simp
  · rw [if_neg (by omega), if_neg (by omega)]
    have hk0 : k ≠ 0 := by omega
    have hnew : ∀ x ∈ R ++ [z], x.take k < r.take k := by
      intro x hx
      refine lt_of_le_of_lt (take_le_take (hxz x hx) k) ?_
      exact lt_of_le_of_ne (take_le_take hzr.le _) (take_ne_of_cpl_lt (by omega) (by omega))
    have hlt : ∀ p ∈ level (R ++ [z]) k, p < r.take k := by
      intro p hp
      obtain ⟨hpl, h0 | ⟨t, ht⟩⟩ := mem_level.mp hp
      · omega
      · have := hnew _ ht
        rwa [← hpl, List.take_left' rfl, hpl] at this
    have hlev : level (R ++ [z] ++ [r]) k = level (R ++ [z]) k ++ [r.take k] := by
      refine asc_ext (level_sorted hs k) ?_ fun p => ?_
      · refine List.pairwise_append.mpr ⟨level_sorted hs1 k, by simp, ?_⟩
        intro p hp q hq
        rw [List.mem_singleton.mp hq]; exact hlt p hp
      · rw [List.mem_append, mem_level, mem_level, List.mem_singleton]
        constructor
        · rintro ⟨hp, h0 | ⟨t, ht⟩⟩
          · omega
          · rcases List.mem_append.mp ht with h | h
            · exact .inl ⟨hp, .inr ⟨t, h⟩⟩
            · exact .inr (append_eq_take hp (List.mem_singleton.mp h))
        · rintro (⟨hp, h0 | ⟨t, ht⟩⟩ | rfl)
          · omega
          · exact ⟨hp, .inr ⟨t, List.mem_append_left _ ht⟩⟩
          · exact ⟨hrkl, .inr ⟨r.drop k, by simp⟩⟩
    rw [hlev, gen_append, gen_congr (fun p hp => hother p (mem_level.mp hp).1 (ne_of_lt (hlt p hp)))]
    have hkeys : keys (subs (R ++ [z] ++ [r]) (r.take k)) = [a] := by
      refine asc_ext (keys_asc (sorted_subs hs _)) (by simp) fun b => ?_
      simp only [mem_keys, mem_subs, List.mem_append (t := [r]), List.mem_singleton]
      constructor
      · rintro ⟨t, ht | ht⟩
        · have := hnew _ ht
          rw [List.take_left' hrkl] at this
          exact absurd this (lt_irrefl _)
        · have := List.append_cancel_left (ht.trans hrk)
          exact (List.cons.inj this).1
      · rintro rfl
        exact ⟨r.drop (k + 1), .inr hrk.symm⟩
    simp only [gen, List.map_cons, List.map_nil, hkeys]


/-! ## The builders -/

/-- the state of the builder of a layer after the input `G` -/
def tb (G : List (Ty × List α)) : TBuilder α :=
  match G.getLast? with
  | none => {}
  | some g => ⟨g.2.foldl Layer.addValue (buildRaw G.dropLast), g.1⟩

theorem tb_snoc (G : List (Ty × List α)) (g : Ty × List α) :
    tb (G ++ [g]) = ⟨g.2.foldl Layer.addValue (buildRaw G), g.1⟩ := by
  simp [tb]

theorem tb_finalize {G : List (Ty × List α)} (hG : G ≠ []) :
    (tb G).finalize = (buildRaw G).finalizeAll := by
  rw [← List.dropLast_concat_getLast hG, tb_snoc, buildRaw_append]
  rfl

theorem tb_add (G : List (Ty × List α)) (σ : Ty) (ks : List α) (a : α) :
    tb (G ++ [(σ, ks ++ [a])]) = (tb (G ++ [(σ, ks)])).addValue a := by
  simp [tb_snoc, TBuilder.addValue]

theorem tb_group {G : List (Ty × List α)} (hG : G ≠ []) (σ : Ty) (a : α) :
    tb (G ++ [(σ, [a])]) = ((tb G).finishInterval σ).addValue a := by
  rw [← List.dropLast_concat_getLast hG]
  rw [tb_snoc, tb_snoc, buildRaw_append]
  rfl

/-- one builder and one row -/
def stepB (k change : Nat) (prev : Ty) (a : α) (b : TBuilder α) : TBuilder α :=
  if k < change then b else (if k ≠ change then b.finishInterval prev else b).addValue a

theorem tb_groupStep {G : List (Ty × List α)} (hG : G ≠ []) (k change : Nat) (prev : Ty) (a : α) :
    tb (groupStep k change prev a G) = stepB k change prev a (tb G) := by
  unfold groupStep stepB
  by_cases h : k < change
  · simp [h]
  · by_cases h' : k = change
    · rw [if_neg h, if_pos h', if_neg h, if_neg (by simp [h'])]
      rw [← List.dropLast_concat_getLast hG]
      simp only [List.getLast?_append, List.getLast?_singleton, Option.some_or,
        List.dropLast_concat]
      exact tb_add _ _ _ _
    · rw [if_neg h, if_neg h', if_neg h, if_pos h']
      exact tb_group hG _ _

theorem scanRow_spec {change m : Nat} {r : List α} (hr : r.length = m) {f g : Nat → TBuilder α}
    (hfg : ∀ (k : Nat) a, r[k]? = some a → g k = stepB k change (lastTy (r.take k)) a (f k)) (n : Nat) :
    ∀ layer last, layer + n = m → (change < layer → last = lastTy (r.take layer)) →
    scanRow change layer last ((List.range' layer n).map f) (r.drop layer) =
      (List.range' layer n).map g := by
  induction n with
  | zero => intro layer last _ _; simp [scanRow]
  | succ n ih =>
    intro layer last hl hlast
    have hlt : layer < r.length := by omega
    have ha : r[layer]? = some (r[layer]'hlt) := List.getElem?_eq_getElem hlt
    have h1 := hfg layer _ ha
    rw [List.range'_succ, List.map_cons, List.map_cons, List.drop_eq_getElem_cons hlt, scanRow]
    unfold stepB at h1
    have hnext : ty (r[layer]'hlt) = lastTy (r.take (layer + 1)) := by
      rw [List.take_add_one, ha, Option.toList_some, lastTy_append]
    by_cases hc : layer < change
    · rw [if_pos hc] at h1 ⊢
      rw [ih (layer + 1) last (by omega) (fun h => by omega), h1]
    · rw [if_neg hc] at h1 ⊢
      rw [ih (layer + 1) _ (by omega) (fun _ => hnext), h1]
      by_cases hc' : layer = change
      · simp [hc']
      · rw [hlast (by omega)]

theorem firstBuilders_spec {r : List α} (n : Nat) :
    ∀ k, k + n = r.length → ∀ o, o.getD 0 = lastTy (r.take k) →
      firstBuilders o (r.drop k) =
        (List.range' k n).map fun k => tb (gen [r] (level [r] k)) := by
  induction n with
  | zero => intro k hk o _; rw [List.drop_eq_nil_of_le (by omega)]; simp [firstBuilders]
  | succ n ih =>
    intro k hk o ho
    have hlt : k < r.length := by omega
    have ha : r[k]? = some (r[k]'hlt) := List.getElem?_eq_getElem hlt
    rw [List.drop_eq_getElem_cons hlt, firstBuilders, List.range'_succ, List.map_cons]
    have hnext : ty (r[k]'hlt) = lastTy (r.take (k + 1)) := by
      rw [List.take_add_one, ha, Option.toList_some, lastTy_append]
    rw [ih (k + 1) (by omega) _ (by simpa using hnext)]
    congr 1
    have hs : SortedRows [r] := by simp [SortedRows]
    have hlev : level [r] k = [r.take k] := by
      refine asc_ext (level_sorted hs k) (by simp) fun p => ?_
      rw [mem_level, List.mem_singleton]
      constructor
      · rintro ⟨hp, h0 | ⟨t, ht⟩⟩
        · subst h0; simpa using hp
        · exact append_eq_take hp (List.mem_singleton.mp ht)
      · rintro rfl
        exact ⟨by simp; omega, .inr ⟨r.drop k, by simp⟩⟩
    have hrk := take_append_drop_cons ha
    have hkeys : keys (subs [r] (r.take k)) = [r[k]'hlt] := by
      refine asc_ext (keys_asc (sorted_subs hs _)) (by simp) fun b => ?_
      simp only [mem_keys, mem_subs, List.mem_singleton]
      constructor
      · rintro ⟨t, ht⟩
        have := List.append_cancel_left (ht.trans hrk)
        exact (List.cons.inj this).1
      · rintro rfl
        exact ⟨r.drop (k + 1), hrk.symm⟩
    rw [hlev]
    simp only [gen, List.map_cons, List.map_nil, hkeys]
    have := tb_snoc ([] : List (Ty × List α)) (lastTy (r.take k), [r[k]'hlt])
    rw [List.nil_append] at this
    rw [this, ← ho]
    rfl

/-- all builders after the rows `R` -/
def allB (m : Nat) (R : List (List α)) : List (TBuilder α) :=
  (List.range' 0 m).map fun k => tb (gen R (level R k))

theorem fold_scanRow {m : Nat} (rest : List (List α × List α)) :
    ∀ (R : List (List α)) (z : List α), (R ++ [z] ++ rest.map (·.1)).Pairwise (· < ·) →
      (∀ x ∈ R ++ [z] ++ rest.map (·.1), x.length = m) →
      ((attachFrom z rest).foldl (fun bs x => scanRow x.2.2 0 0 bs x.1) (allB m (R ++ [z]))) =
        allB m (R ++ [z] ++ rest.map (·.1)) := by
  induction rest with
  | nil => intro R z _ _; simp [attachFrom]
  | cons x rest ih =>
    intro R z hs hl
    obtain ⟨r, s⟩ := x
    rw [attachFrom, List.foldl_cons]
    simp only [List.map_cons]
    have hs' : (R ++ [z] ++ [r] ++ rest.map (·.1)).Pairwise (· < ·) := by simpa using hs
    have hl' : ∀ x ∈ R ++ [z] ++ [r] ++ rest.map (·.1), x.length = m := by simpa using hl
    have hs1 : (R ++ [z] ++ [r]).Pairwise (· < ·) := (List.pairwise_append.mp hs').1
    have hsw : SortedRows (R ++ [z] ++ [r]) := hs1.imp le_of_lt
    have hzr : z < r := (List.pairwise_append.mp hs1).2.2 z (by simp) r (by simp)
    have hstep : scanRow (cpl z r) 0 0 (allB m (R ++ [z])) r = allB m (R ++ [z] ++ [r]) := by
      have := scanRow_spec (change := cpl z r) (m := m) (r := r) (hl' r (by simp))
        (f := fun k => tb (gen (R ++ [z]) (level (R ++ [z]) k)))
        (g := fun k => tb (gen (R ++ [z] ++ [r]) (level (R ++ [z] ++ [r]) k)))
        (fun k a ha => by
          rw [gen_snoc hsw (fun x hx => hl' x (by simp at hx ⊢; tauto)) (ne_of_lt hzr) ha]
          refine tb_groupStep ?_ _ _ _ _
          have hr := hl' r (by simp)
          obtain ⟨hk, _⟩ := List.getElem?_eq_some_iff.mp ha
          have hz := hl' z (by simp)
          intro h0
          have : level (R ++ [z]) k = [] := by simpa [gen] using h0
          have hm : z.take k ∈ level (R ++ [z]) k := by
            rw [mem_level]; exact ⟨by simp; omega, .inr ⟨z.drop k, by simp⟩⟩
          rw [this] at hm; simp at hm) m 0 0 (by omega) (fun h => by omega)
      simpa [allB] using this
    have := ih (R ++ [z]) r hs' hl'
    rw [hstep, this]
    simp

/-- **The trie materialized from a row scan represents the scanned rows.** -/
theorem Trie.fromScanRows_rep {m : Nat} (hm : 0 < m) {rows : List (List α × List α)}
    (hs : (rows.map (·.1)).Pairwise (· < ·)) (hl : ∀ x ∈ rows, x.1.length = m) :
    ∃ t, Trie.fromScanRows m ((attach 0 rows).map fun x => (x.1, x.2.2)) = t ∧ t.arity = m ∧
      Rep t (rows.map (·.1)) ∧ t.emptyRow = false := by
  refine ⟨_, rfl, ?_⟩
  unfold Trie.fromScanRows
  rw [if_neg (by omega)]
  cases rows with
  | nil =>
    simp only [attach, List.map_nil]
    refine ⟨by simp [Trie.empty, Trie.arity], ⟨?_, ?_⟩, rfl⟩
    · intro k l τ hk
      have : l = MBuilder.finalize (α := α) {} := by
        have := List.mem_of_getElem? hk
        simp only [Trie.empty] at this
        exact (List.mem_replicate.mp this).2
      subst this
      cases k with
      | zero => simp [MBuilder.finalize, Layer.finalizeAll, ICol.finalize, Layer.empty, level, gen,
          allKeys, keysOf, subs, keys, uniq]
      | succ k => rw [level_nil]; rfl
    · intro k l _ h
      exact absurd (level_nil k) h
  | cons x rest =>
    obtain ⟨r, s⟩ := x
    have h1 : firstBuilders none r = allB m [r] := by
      have := firstBuilders_spec (r := r) r.length 0 (by omega) none (by simp [lastTy])
      rw [List.drop_zero] at this
      rw [this, allB, hl (r, s) (by simp)]
    have h2 := fold_scanRow (m := m) rest [] r (by simpa using hs) (by
      intro y hy
      simp only [List.nil_append, List.mem_append, List.mem_singleton, List.mem_map] at hy
      rcases hy with rfl | ⟨x, hx, rfl⟩
      · exact hl (y, s) (by simp)
      · exact hl x (by simp [hx]))
    have h3 : (((attach 0 ((r, s) :: rest)).map fun x => (x.1, x.2.2))) =
        (r, 0) :: (attachFrom r rest).map fun x => (x.1, x.2.2) := rfl
    simp only [h3, List.foldl_map, h1]
    simp only [List.nil_append] at h2
    rw [h2]
    have hne : ∀ k < m, gen ([r] ++ rest.map (·.1)) (level ([r] ++ rest.map (·.1)) k) ≠ [] := by
      intro k hk h0
      have : level ([r] ++ rest.map (·.1)) k = [] := by simpa [gen] using h0
      have hrm := hl (r, s) (by simp)
      simp only at hrm
      have hm : r.take k ∈ level ([r] ++ rest.map (·.1)) k := by
        rw [mem_level]; exact ⟨by simp; omega, .inr ⟨r.drop k, by simp⟩⟩
      rw [this] at hm; simp at hm
    have hcol : ∀ (k : Nat) (l : Layer α), ((allB m ([r] ++ rest.map (·.1))).map TBuilder.finalize)[k]? = some l →
        l = (buildRaw (gen ([r] ++ rest.map (·.1)) (level ([r] ++ rest.map (·.1)) k))).finalizeAll := by
      intro k l hk
      rw [allB, List.map_map, List.getElem?_map, Option.map_eq_some_iff] at hk
      obtain ⟨i, hi, rfl⟩ := hk
      obtain ⟨hlt, hi⟩ := List.getElem?_eq_some_iff.mp hi
      simp only [List.length_range'] at hlt
      simp only [List.getElem_range', Nat.zero_add, Nat.one_mul] at hi
      subst hi
      exact tb_finalize (hne k hlt)
    refine ⟨by simp [Trie.arity, allB], ⟨?_, ?_⟩, trivial⟩
    · intro k l τ hk
      rw [hcol k l hk]
      exact finalize_data _ _
    · intro k l hk _
      exact hcol (k + 1) l hk

end Verif
