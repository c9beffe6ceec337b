import Verif.TextRun
import Verif.NormalizeTerm

/-!
# C51: the answers of a program text are what it means
-/
set_option linter.unusedSimpArgs false
set_option linter.unusedSectionVars false

namespace Verif.Tr
open Verif.Parse (Str Ex FEl VarKind AOp IOp Enc Guard RuleAst DirectiveAst KindAst StmtAst ProgramAst Part)

section tables
variable {α : Type}

theorem mem_addRow {x : Verif.Tag × List α} {es : List (Verif.Tag × List (List α))} {p : Verif.Tag} {row : List α} :
    (∃ t, (p, t) ∈ addRow x es ∧ row ∈ t) ↔ (p, row) = x ∨ ∃ t, (p, t) ∈ es ∧ row ∈ t := by
  induction es with
  | nil => simp [addRow, Prod.ext_iff, and_comm]
  | cons e es ih =>
    rw [addRow]
    split
    · rename_i h
      obtain ⟨q, t⟩ := e
      obtain ⟨q', y⟩ := x
      dsimp only at h
      subst h
      constructor
      · rintro ⟨t', h1, h2⟩
        rcases List.mem_cons.1 h1 with h1 | h1
        · cases h1
          rcases List.mem_append.1 h2 with h2 | h2
          · exact .inr ⟨t, by simp, h2⟩
          · rw [List.mem_singleton] at h2; subst h2; exact .inl rfl
        · exact .inr ⟨t', by simp [h1], h2⟩
      · rintro (h | ⟨t', h1, h2⟩)
        · cases h; exact ⟨t ++ [row], by simp, by simp⟩
        · rcases List.mem_cons.1 h1 with h1 | h1
          · cases h1; exact ⟨t ++ [y], by simp, by simp [h2]⟩
          · exact ⟨t', by simp [h1], h2⟩
    · constructor
      · rintro ⟨t', h1, h2⟩
        rcases List.mem_cons.1 h1 with h1 | h1
        · exact .inr ⟨t', by simp [h1], h2⟩
        · rcases ih.1 ⟨t', h1, h2⟩ with h | ⟨t, h3, h4⟩
          · exact .inl h
          · exact .inr ⟨t, by simp [h3], h4⟩
      · rintro (h | ⟨t', h1, h2⟩)
        · obtain ⟨t, h3, h4⟩ := ih.2 (.inl h)
          exact ⟨t, by simp [h3], h4⟩
        · rcases List.mem_cons.1 h1 with h1 | h1
          · exact ⟨t', by simp [h1], h2⟩
          · obtain ⟨t, h3, h4⟩ := ih.2 (.inr ⟨t', h1, h2⟩)
            exact ⟨t, by simp [h3], h4⟩

theorem addRow_keys {x : Verif.Tag × List α} {es : List (Verif.Tag × List (List α))} (h : (es.map (·.1)).Nodup) :
    ((addRow x es).map (·.1)).Nodup ∧ ∀ p ∈ (addRow x es).map (·.1), p = x.1 ∨ p ∈ es.map (·.1) := by
  induction es with
  | nil => simp [addRow]
  | cons e es ih =>
    rw [addRow]
    split
    · exact ⟨h, fun p hp => .inr hp⟩
    · rename_i hne
      rw [List.map_cons, List.nodup_cons] at h ⊢
      obtain ⟨h1, h2⟩ := ih h.2
      refine ⟨⟨fun hm => (h2 _ hm).elim hne h.1, h1⟩, fun p hp => ?_⟩
      rcases List.mem_cons.1 hp with rfl | hp
      · exact .inr (by simp)
      · exact (h2 p hp).imp_right fun h => by simp only [List.map_cons, List.mem_cons]; exact .inr h

/-- the tables contain exactly the rows -/
theorem tables_spec (rows : List (Verif.Tag × List α)) : (∀ p row, edbFacts (tables rows) p row ↔ (p, row) ∈ rows) ∧
    ((tables rows).map (·.1)).Nodup := by
  have : ∀ (rows : List (Verif.Tag × List α)) es, (es.map (·.1)).Nodup →
      (∀ p row, edbFacts (rows.foldl (fun es x => addRow x es) es) p row ↔ (p, row) ∈ rows ∨ edbFacts es p row) ∧
      ((rows.foldl (fun es x => addRow x es) es).map (·.1)).Nodup := by
    intro rows
    induction rows with
    | nil => intro es h; simpa using h
    | cons x rows ih =>
      intro es h
      obtain ⟨h1, h2⟩ := ih (addRow x es) (addRow_keys h).1
      refine ⟨fun p row => ?_, h2⟩
      have := mem_addRow (x := x) (es := es) (p := p) (row := row)
      rw [List.foldl_cons, h1, List.mem_cons]
      unfold edbFacts
      rw [this]
      tauto
  obtain ⟨h1, h2⟩ := this rows [] (by simp)
  exact ⟨fun p row => by rw [tables, h1]; simp [edbFacts], h2⟩

end tables

section
variable {α : Type} [DecidableEq α] [Dom α] {L : Fn.Lib} {el : DV → α} {c : Ctx}

/-! ### Facts -/

theorem groundRow_spec {es : List Ex} (hp : ∀ e ∈ es, PlainEx e ∧ varsOf e = []) {ts : List Term}
    (h : List.Forall₂ (fun e t => term L c e = .ok t) es ts) : ∃ r, groundRow el ts = some r ∧
      ∀ row, r = some row ↔ List.Forall₂ (fun e b => ∀ ρ, value L el c.names ρ e = some b) es row := by
  induction h with
  | nil => exact ⟨some [], rfl, fun row => by simp [eq_comm]⟩
  | @cons e t es ts h1 _ ih =>
    obtain ⟨r, h2, h3⟩ := ih fun e he => hp e (by simp [he])
    obtain ⟨hpe, hve⟩ := hp e (by simp)
    obtain ⟨⟨o, h4, h5⟩, -⟩ := good (el := el) e t hpe h1
    have hvars : o.vars = [] := by rw [h5.1, hve]; rfl
    have hval : ∀ ρ, value L el c.names ρ e = o.eval fun _ => Dom.tru := fun ρ =>
      (h5.eval (by rw [hve]; simp)).symm
    rw [groundRow, h4]
    simp only [Option.bind_eq_bind, Option.bind_some, hvars, if_true]
    cases hv : o.eval fun _ => Dom.tru with
    | none =>
      refine ⟨none, rfl, fun row => ?_⟩
      simp only [reduceCtorEq, false_iff]
      intro hf
      cases hf with
      | cons hx _ => rw [← hval (fun _ => Dom.tru), hx] at hv; cases hv
    | some a =>
      refine ⟨r.map (a :: ·), by simp [h2], fun row => ?_⟩
      rw [Option.map_eq_some_iff, List.forall₂_cons_left_iff]
      constructor
      · rintro ⟨row', hr, rfl⟩
        exact ⟨a, row', fun ρ => by rw [hval, hv], (h3 row').1 hr, rfl⟩
      · rintro ⟨b, row', hb, hr, rfl⟩
        have : a = b := by have := hb fun _ => Dom.tru; rw [hval, hv] at this; exact Option.some.inj this
        subst this
        exact ⟨row', (h3 row').2 hr, rfl⟩

theorem groundFacts_spec {gs : List Guard} {as : List Atom} (h : List.Forall₂ (fun g a => fact L c g = .ok a) gs as)
    (hp : ∀ t es, .expression (.atom t es) ∈ gs → ∀ e ∈ es, PlainEx e ∧ varsOf e = []) :
    ∃ fs, groundFacts el as = some fs ∧ ∀ p row, (p, row) ∈ fs ↔ ∃ t es n, .expression (.atom t es) ∈ gs ∧
      c.names.full t = some n ∧ p = code n ∧ List.Forall₂ (fun e b => ∀ ρ, value L el c.names ρ e = some b) es row := by
  induction h with
  | nil => exact ⟨[], rfl, by simp⟩
  | @cons g a gs as h1 _ ih =>
    obtain ⟨fs, h2, h3⟩ := ih fun t es hg => hp t es (by simp [hg])
    obtain ⟨t, es, rfl⟩ : ∃ t es, g = .expression (.atom t es) := by
      unfold fact at h1
      split at h1
      · exact ⟨_, _, rfl⟩
      · cases h1
    have h1 : atom L c t es = .ok a := h1
    simp only [atom, Res.bind_eq_ok, Res.ok.injEq] at h1
    obtain ⟨n, hn, ts, hts, rfl⟩ := h1
    obtain ⟨r, h4, h5⟩ := groundRow_spec (el := el) (hp t es (by simp)) (terms_eq.1 hts)
    have hn := resolve_full.1 hn
    refine ⟨match r with
      | some row => (code n, row) :: fs
      | none => fs, by simp only [groundFacts, h4, h2]; cases r <;> rfl, fun p row => ?_⟩
    have key : (∃ t' es' n', Guard.expression (.atom t' es') ∈ Guard.expression (.atom t es) :: gs ∧
        c.names.full t' = some n' ∧ p = code n' ∧ List.Forall₂ (fun e b => ∀ ρ, value L el c.names ρ e = some b) es' row) ↔
        (p = code n ∧ r = some row) ∨ (p, row) ∈ fs := by
      rw [h3, h5]
      constructor
      · rintro ⟨t', es', n', hm, k1, k2, k3⟩
        rcases List.mem_cons.1 hm with hm | hm
        · cases hm
          rw [hn] at k1
          cases k1
          exact .inl ⟨k2, k3⟩
        · exact .inr ⟨t', es', n', hm, k1, k2, k3⟩
      · rintro (⟨k1, k2⟩ | ⟨t', es', n', hm, k⟩)
        · exact ⟨t, es, n, by simp, hn, k1, k2⟩
        · exact ⟨t', es', n', by simp [hm], k⟩
    rw [key]
    cases r with
    | none => simp
    | some row' => simp [Prod.ext_iff, eq_comm]

/-! ### Conditions on rules -/

theorem uvar_universal (n : Str) : (uvar n).isExistential = false := rfl

theorem uvar_underscore {n : Str} {s : String} (h : uvar n = .named ("_" ++ s)) : n.head? = some '_' := by
  have h1 := congrArg String.toList (named_inj h)
  rw [String.toList_ofList, String.toList_append] at h1
  rw [h1]
  rfl

variable {r : RuleAst} {S : SRule α}

theorem mem_varsList {ts : List (HTerm α)} {v : Variable} : v ∈ HTerm.varsList ts ↔ ∃ t ∈ ts, v ∈ t.vars := by
  induction ts with
  | nil => simp [HTerm.varsList]
  | cons t ts ih => simp [HTerm.varsList, ih]

theorem headVars (hf : RuleFor L el c r S) {h : SHead α} (hh : h ∈ S.head) {t : HTerm α} (ht : t ∈ h.terms) {v : Variable}
    (hv : v ∈ t.vars) : (∃ n g, v = uvar n ∧ g ∈ r.head ∧ n ∈ guardVars g) ∨
      ∃ n, t = .var (evar n) ∧ v = evar n ∧ ∃ e ∈ r.head.flatMap arguments, existential (bare e) = some n := by
  obtain ⟨⟨t', es⟩, hp, n, -, -, hargs⟩ := forall₂_right hf.head hh
  obtain ⟨e, he, hfor⟩ := forall₂_right hargs ht
  have key : ∀ m ∈ varsOf e, ∃ n g, uvar m = uvar n ∧ g ∈ r.head ∧ n ∈ guardVars g :=
    fun m hm => ⟨m, _, rfl, mem_positives.1 hp, mem_varsOfAll.2 ⟨e, he, hm⟩⟩
  cases hfor with
  | plain _ _ hfor =>
    rw [hfor.1, List.mem_map] at hv
    obtain ⟨m, hm, rfl⟩ := hv
    exact .inl (key m hm)
  | @exist n h _ _ =>
    obtain rfl : v = evar n := by simpa [HTerm.vars] using hv
    exact .inr ⟨n, rfl, rfl, e, mem_arguments.2 ⟨t', es, mem_positives.1 hp, he⟩, h⟩
  | @aggr k i ds ns o _ h _ hvs ho _ =>
    left
    simp only [HTerm.vars, List.mem_append] at hv
    rcases hv with hv | hv
    · rw [ho.1, List.mem_map] at hv
      obtain ⟨m, hm, rfl⟩ := hv
      exact key m (by rw [hvs]; simp [hm])
    · rw [List.mem_map] at hv
      obtain ⟨m, hm, rfl⟩ := hv
      exact key m (by rw [hvs]; simp [hm])

theorem hasEx_iff (hf : RuleFor L el c r S) : (∃ h ∈ S.head, ∃ v ∈ HTerm.varsList h.terms, v.isExistential = true) ↔
    ¬ NoExistential r := by
  constructor
  · rintro ⟨h, hh, v, hv, hx⟩ hno
    obtain ⟨t, ht, hv⟩ := mem_varsList.1 hv
    rcases headVars hf hh ht hv with ⟨n, g, rfl, -⟩ | ⟨n, -, -, e, he, hn⟩
    · cases hx
    · rw [hno e he] at hn; cases hn
  · intro hno
    by_contra hc
    refine hno fun e he => ?_
    obtain ⟨t, es, hg, he⟩ := mem_arguments.1 he
    obtain ⟨x, hx, _, -, -, hargs⟩ := forall₂_left hf.head (mem_positives.2 hg)
    obtain ⟨y, hy, hab⟩ := forall₂_left hargs he
    cases hab with
    | plain h _ _ => exact h
    | @exist n _ _ _ => exact absurd ⟨x, hx, evar n, mem_varsList.2 ⟨_, hy, by simp [HTerm.vars]⟩, rfl⟩ hc
    | aggr h _ => exact h

/-- the numbers of aggregates -/
theorem agg_total (hf : RuleFor L el c r S) : (S.head.map fun h => HTerm.aggCountList h.terms).sum = (aggregates r).length := by
  have h1 : aggregates r = ((positives r.head).flatMap (·.2)).filterMap fun e => aggregate (bare e) := by
    unfold aggregates
    congr 1
    have := hf.atoms
    generalize r.head = gs at this
    induction gs with
    | nil => rfl
    | cons g gs ih =>
      obtain ⟨t, es, rfl⟩ := this g (by simp)
      rw [List.flatMap_cons, positives, List.flatMap_cons, ih fun h hh => this h (by simp [hh])]
      rfl
  rw [h1]
  have h2 := hf.head
  generalize positives r.head = ps at h2
  generalize S.head = hs at h2
  induction h2 with
  | nil => rfl
  | @cons p h ps hs hp _ ih =>
    obtain ⟨_, -, -, hargs⟩ := hp
    rw [List.map_cons, List.sum_cons, ih, List.flatMap_cons, List.filterMap_append, List.length_append]
    congr 1
    generalize p.2 = es at hargs
    generalize h.terms = ts at hargs
    induction hargs with
    | nil => rfl
    | @cons e t es ts h' _ ih' =>
      rw [HTerm.aggCountList, ih', h'.count_eq]
      cases hx : aggregate (bare e) with
      | none => simp [List.filterMap_cons, hx]
      | some x => simp [List.filterMap_cons, hx]; omega

theorem count_pos {ts : List (HTerm α)} {t : HTerm α} (ht : t ∈ ts) (hc : t.aggCount ≠ 0) : 1 ≤ HTerm.aggCountList ts := by
  induction ts with
  | nil => cases ht
  | cons t' ts ih =>
    rw [HTerm.aggCountList]
    rcases List.mem_cons.1 ht with rfl | ht
    · omega
    · have := ih ht; omega

theorem sum_two {l : List Nat} {i j : Nat} {a b : Nat} (hij : i < j) (hi : l[i]? = some a) (hj : l[j]? = some b) : a + b ≤ l.sum := by
  induction l generalizing i j with
  | nil => simp at hi
  | cons x l ih =>
    match i, j with
    | 0, j + 1 =>
      simp only [List.getElem?_cons_zero, Option.some.injEq] at hi
      simp only [List.getElem?_cons_succ] at hj
      have := List.le_sum_of_mem (List.mem_of_getElem? hj)
      rw [List.sum_cons]
      omega
    | i + 1, j + 1 =>
      simp only [List.getElem?_cons_succ] at hi hj
      have := ih (by omega) hi hj
      rw [List.sum_cons]
      omega

/-- No name in the rule starts with `_`. -/
theorem var_names (hf : RuleFor L el c r S) (hs : Scoped r) {v : Variable} (hv : v ∈ S.vars) (s : String) : v ≠ .named ("_" ++ s) := by
  intro hr
  have key : (∃ n g, v = uvar n ∧ (g ∈ r.head ∨ g ∈ r.body) ∧ n ∈ guardVars g) ∨ ∃ n, v = evar n := by
    simp only [SRule.vars, List.mem_append, List.mem_flatMap] at hv
    rcases hv with (⟨a, ha, b, hb, hv⟩ | ⟨o, ho, hv⟩) | ⟨h, hh, hv⟩
    · have hat : ∃ p : Parse.Tag × List Ex, (∃ g, g ∈ r.body ∧ guardVars g = varsOfAll p.2) ∧ AtomFor L el c p a := by
        rcases ha with ha | ha
        · obtain ⟨⟨t, es⟩, hp, hfor⟩ := forall₂_right hf.positive ha
          exact ⟨(t, es), ⟨_, mem_positives.1 hp, rfl⟩, hfor⟩
        · obtain ⟨⟨t, es⟩, hp, hfor⟩ := forall₂_right hf.negative ha
          exact ⟨(t, es), ⟨_, mem_negatives.1 hp, rfl⟩, hfor⟩
      obtain ⟨⟨t, es⟩, ⟨g, hg, hgv⟩, hfor⟩ := hat
      cases b with
      | var w =>
        obtain rfl : v = w := by simpa using hv
        obtain ⟨n, rfl, hn⟩ := atomVar_mem hfor hb
        exact .inl ⟨n, g, rfl, .inr hg, by rw [hgv]; exact hn⟩
      | anon => simp at hv
      | const => simp at hv
      | oper o =>
        obtain ⟨_, -, -, hargs⟩ := hfor
        obtain ⟨e, he, hab⟩ := forall₂_right hargs hb
        have hv : v ∈ o.vars := hv
        rw [hab.2.2.1.1, List.mem_map] at hv
        obtain ⟨n, hn, rfl⟩ := hv
        exact .inl ⟨n, g, rfl, .inr hg, by rw [hgv]; exact mem_varsOfAll.2 ⟨e, he, hn⟩⟩
    · obtain ⟨g, hg, hc⟩ := forall₂_right hf.operations ho
      rw [hc.vars, List.mem_map] at hv
      obtain ⟨n, hn, rfl⟩ := hv
      exact .inl ⟨n, g, rfl, .inr (mem_conditions.1 hg).1, hn⟩
    · obtain ⟨t, ht, hv⟩ := mem_varsList.1 hv
      rcases headVars hf hh ht hv with ⟨n, g, h1, h2, h3⟩ | ⟨n, -, h1, -⟩
      · exact .inl ⟨n, g, h1, .inl h2, h3⟩
      · exact .inr ⟨n, h1⟩
  rcases key with ⟨n, g, rfl, hg, hn⟩ | ⟨n, rfl⟩
  · exact hs.names g hg n hn (uvar_underscore hr)
  · cases hr

theorem valid (hf : RuleFor L el c r S) (hs : Scoped r) : SValid S := by
  have htotal : (S.head.map fun h => HTerm.aggCountList h.terms).sum ≤ 1 := by rw [agg_total hf]; exact hs.aggregate.1
  refine ⟨?_, ?_, ?_, ?_, ?_, ?_, ?_, ?_, ?_⟩
  · intro v hv hr
    obtain ⟨s, h⟩ := hr.underscore
    exact var_names hf hs hv s h
  · intro a ha o ho v hv
    have hat : ∃ t es, (.expression (.atom t es) ∈ r.body ∨ .expression (.negation (.atom t es)) ∈ r.body) ∧
        AtomFor L el c (t, es) a := by
      rcases List.mem_append.1 ha with ha | ha
      · obtain ⟨⟨t, es⟩, hp, hfor⟩ := forall₂_right hf.positive ha
        exact ⟨t, es, .inl (mem_positives.1 hp), hfor⟩
      · obtain ⟨⟨t, es⟩, hp, hfor⟩ := forall₂_right hf.negative ha
        exact ⟨t, es, .inr (mem_negatives.1 hp), hfor⟩
    obtain ⟨t, es, hg, _, -, -, hargs⟩ := hat
    obtain ⟨e, he, hab⟩ := forall₂_right hargs ho
    rw [hab.2.2.1.1, List.mem_map] at hv
    obtain ⟨n, hn, rfl⟩ := hv
    exact (safe_uvar hf n).2 (hs.arguments t es hg e he hab.1 n hn)
  · intro o ho
    exact (condition_vars hf hs ho).imp_right fun ⟨a, ha, h⟩ => ⟨a, ha, fun v hv => .inr (h v hv)⟩
  · intro h hh v hv hx
    obtain ⟨t, ht, hv⟩ := mem_varsList.1 hv
    rcases headVars hf hh ht hv with ⟨n, g, rfl, h2, h3⟩ | ⟨n, -, rfl, -⟩
    · exact (safe_uvar hf n).2 (hs.head g h2 n h3)
    · cases hx
  · intro h hh t ht hne v hv
    rcases headVars hf hh ht hv with ⟨n, g, rfl, -⟩ | ⟨n, h', -⟩
    · rfl
    · exact absurd h' (hne _)
  · rintro i j h h' hi hj ⟨t, ht, hc⟩ ⟨t', ht', hc'⟩
    have e1 : (S.head.map fun h => HTerm.aggCountList h.terms)[i]? = some (HTerm.aggCountList h.terms) := by simp [hi]
    have e2 : (S.head.map fun h => HTerm.aggCountList h.terms)[j]? = some (HTerm.aggCountList h'.terms) := by simp [hj]
    have p1 := count_pos ht hc
    have p2 := count_pos ht' hc'
    rcases Nat.lt_trichotomy i j with hij | hij | hij
    · have := sum_two hij e1 e2; omega
    · exact hij
    · have := sum_two hij e2 e1; omega
  · intro h hh
    exact (List.le_sum_of_mem (List.mem_map_of_mem (f := fun h => HTerm.aggCountList h.terms) hh)).trans htotal
  · rintro h hh ⟨t, ht, hc⟩ v hv
    by_contra hx
    exact (hasEx_iff hf).1 ⟨h, hh, v, hv, by simpa using hx⟩ (hs.aggregate.2 ((hasAgg_iff hf).1 ⟨h, hh, t, ht, hc⟩))
  · have h1 : (negatives r.body).Pairwise fun p q => ∀ n ∈ varsOfAll p.2, n ∈ varsOfAll q.2 → Bound r n := by
      have : ∀ gs : List Guard, (gs.Pairwise fun g g' => IsNegated g → IsNegated g' → ∀ n ∈ guardVars g, n ∈ guardVars g' → Bound r n) →
          (negatives gs).Pairwise fun p q => ∀ n ∈ varsOfAll p.2, n ∈ varsOfAll q.2 → Bound r n := by
        intro gs
        induction gs with
        | nil => intro _; exact .nil
        | cons g gs ih =>
          intro h
          rw [List.pairwise_cons] at h
          have hrest := ih h.2
          cases g with
          | compare => exact hrest
          | expression e =>
            cases e with
            | negation e =>
              cases e with
              | atom t es =>
                refine .cons (fun q hq n h1 h2 => ?_) hrest
                obtain ⟨t', es'⟩ := q
                exact h.1 _ (mem_negatives.1 hq) trivial trivial n h1 h2
              | _ => exact hrest
            | _ => exact hrest
      exact this _ hs.negated
    have h2 := hf.negative
    generalize negatives r.body = ps at h1 h2
    generalize S.negative = as at h2
    induction h2 with
    | nil => exact .nil
    | @cons p a ps as hpa hrest ih =>
      rw [List.pairwise_cons] at h1
      refine .cons (fun b hb v hv hv' => ?_) (ih h1.2)
      obtain ⟨q, hq, hqb⟩ := forall₂_right hrest hb
      obtain ⟨n, rfl, hn⟩ := atomVar_mem hpa hv
      obtain ⟨m, hm, hm'⟩ := atomVar_mem hqb hv'
      rw [← uvar_inj hm] at hm'
      exact (safe_uvar hf n).2 (h1.1 q hq n hn hm')

/-- the numbers of arguments by the numbers of predicates -/
noncomputable def arityOf (arity : Str → Nat) (p : Verif.Tag) : Nat :=
  open Classical in if h : ∃ n, p = code n then arity h.choose else 0

theorem arityOf_code (arity : Str → Nat) (n : Str) : arityOf arity (code n) = arity n := by
  have h : ∃ m, code n = code m := ⟨n, rfl⟩
  rw [arityOf, dif_pos h]
  exact congrArg arity (code_inj h.choose_spec).symm

theorem ruleOK (hf : RuleFor L el c r S) (hs : Scoped r) (hno : NoExistential r) {arity : Str → Nat}
    (har : ∀ t es, (.expression (.atom t es) ∈ r.head ∨ .expression (.atom t es) ∈ r.body ∨
      .expression (.negation (.atom t es)) ∈ r.body) → ∀ n, c.names.full t = some n → es.length = arity n) :
    SRuleOK S (arityOf arity) := by
  refine ⟨?_, ?_, ?_, ?_, ?_⟩
  · intro a ha
    have hat : ∃ t es, (.expression (.atom t es) ∈ r.body ∨ .expression (.negation (.atom t es)) ∈ r.body) ∧
        AtomFor L el c (t, es) a := by
      rcases List.mem_append.1 ha with ha | ha
      · obtain ⟨⟨t, es⟩, hp, hfor⟩ := forall₂_right hf.positive ha
        exact ⟨t, es, .inl (mem_positives.1 hp), hfor⟩
      · obtain ⟨⟨t, es⟩, hp, hfor⟩ := forall₂_right hf.negative ha
        exact ⟨t, es, .inr (mem_negatives.1 hp), hfor⟩
    obtain ⟨t, es, hg, n, hn, hpred, hargs⟩ := hat
    rw [hpred, arityOf_code, ← hargs.length_eq]
    exact har t es (.inr hg) n hn
  · intro h hh
    obtain ⟨⟨t, es⟩, hp, n, hn, hpred, hargs⟩ := forall₂_right hf.head hh
    rw [hpred, arityOf_code, ← hargs.length_eq]
    exact har t es (.inl (mem_positives.1 hp)) n hn
  · intro h hh v hv
    by_contra hx
    exact (hasEx_iff hf).1 ⟨h, hh, v, hv, by simpa using hx⟩ hno
  · intro a ha
    obtain ⟨⟨t, es⟩, hp, _, -, -, hargs⟩ := forall₂_right hf.negative ha
    obtain ⟨e, he, hne, hb⟩ := hs.shared t es (mem_negatives.1 hp)
    obtain ⟨b, hmem, hab⟩ := forall₂_left hargs he
    cases b with
    | anon => exact absurd hab hne
    | var v =>
      obtain ⟨n, hn, rfl⟩ := hab
      exact .inl ⟨_, hmem, (safe_uvar hf n).2 (hb n (by rw [argVars hn]; simp))⟩
    | const x => exact .inr (.inl ⟨x, hmem⟩)
    | oper o => exact .inr (.inr ⟨o, hmem⟩)
  · exact fun a ha o ho h => negLocal hf hs ha ho h

/-! ### Programs -/

theorem collect_for {β γ δ : Type} {R : β → γ → Prop} {Q : β → δ → Prop} {f : γ → Option δ} {l : List β} {l' : List γ}
    (h : List.Forall₂ R l l') (hf : ∀ b ∈ l, ∀ c, R b c → ∃ d, f c = some d ∧ Q b d) :
    ∃ ds, collect f l' = some ds ∧ List.Forall₂ Q l ds := by
  induction h with
  | nil => exact ⟨[], rfl, .nil⟩
  | cons h1 _ ih =>
    obtain ⟨d, hd, hq⟩ := hf _ (by simp) _ h1
    obtain ⟨ds, hds, hqs⟩ := ih fun b hb => hf b (by simp [hb])
    exact ⟨d :: ds, by simp [collect, hd, hds], .cons hq hqs⟩

/-- The program that a text stands for, as it is executed: the rules, and the facts by the numbers of their predicates. -/
structure ProgramFor (L : Fn.Lib) (el : DV → α) (c : Ctx) (ss : List StmtAst) (Ss : List (SRule α))
    (fs : List (Verif.Tag × List α)) (arity : Str → Nat) : Prop where
  rules : List.Forall₂ (RuleFor L el c) (ruleAsts ss) Ss
  facts : ∀ p row, (p, row) ∈ fs ↔ ∃ n, p = code n ∧ Stated L el c.names ss n row
  covered : Covered c.names ss arity

theorem program_for {p : ProgramAst} {items : List Item} (htr : translate L p = .ok items) {N : Names}
    (hN : Declared p.statements N) {arity : Str → Nat} (hcov : Covered N p.statements arity) :
    ∃ Ss fs c, N = Ctx.names c ∧ sourceRules el items = some Ss ∧ sourceFacts el items = some fs ∧
      ProgramFor L el c p.statements Ss fs arity := by
  obtain ⟨c, hc, iss, hiss, rfl⟩ := translate_ok htr
  obtain rfl := hN.unique hc
  obtain ⟨Ss, hSs, hrules⟩ := collect_for (f := sourceRule el) (Q := fun r S => RuleFor L el c r S) (items_rules hiss)
    fun r hr R ⟨attrs, hR⟩ => by
      obtain ⟨s, hs, hk⟩ := mem_ruleAsts.1 hr
      exact rule_for (hcov.rules s hs r hk).1 hR
  obtain ⟨fs, hfs, hfacts⟩ := groundFacts_spec (el := el) (items_facts hiss) fun t es hg => by
    obtain ⟨s, hs, hk⟩ := mem_factAsts.1 hg
    exact hcov.facts s hs t es hk
  refine ⟨Ss, fs, c, rfl, hSs, hfs, hrules, fun q row => ?_, hcov⟩
  rw [hfacts]
  constructor
  · rintro ⟨t, es, n, hg, hn, rfl, hrow⟩
    obtain ⟨s, hs, hk⟩ := mem_factAsts.1 hg
    exact ⟨n, rfl, s, hs, t, es, hk, hn, hrow⟩
  · rintro ⟨n, rfl, s, hs, t, es, hk, hn, hrow⟩
    exact ⟨t, es, n, mem_factAsts.2 ⟨s, hs, hk⟩, hn, rfl, hrow⟩

section
variable {ss : List StmtAst} {Ss : List (SRule α)} {fs : List (Verif.Tag × List α)} {arity : Str → Nat}

theorem ProgramFor.rule (h : ProgramFor L el c ss Ss fs arity) {S : SRule α} (hS : S ∈ Ss) :
    ∃ s ∈ ss, ∃ r, s.kind = .rule r ∧ RuleFor L el c r S ∧ Scoped r := by
  obtain ⟨r, hr, hf⟩ := forall₂_right h.rules hS
  obtain ⟨s, hs, hk⟩ := mem_ruleAsts.1 hr
  exact ⟨s, hs, r, hk, hf, (h.covered.rules s hs r hk).2⟩

theorem ProgramFor.valid (h : ProgramFor L el c ss Ss fs arity) : ∀ S ∈ Ss, SValid S := fun S hS => by
  obtain ⟨_, _, _, _, h1, h2⟩ := h.rule hS
  exact Tr.valid h1 h2

theorem ProgramFor.ok (h : ProgramFor L el c ss Ss fs arity) (hno : ∀ s ∈ ss, ∀ r, s.kind = .rule r → NoExistential r) : ∀ S ∈ Ss, SRuleOK S (arityOf arity) := fun S hS => by
  obtain ⟨s, hs, r, hk, h1, h2⟩ := h.rule hS
  refine ruleOK h1 h2 (hno s hs r hk) fun t es h' n hn => ?_
  rcases h' with h' | h' | h'
  · exact h.covered.arity t es (.head hs hk h') n hn
  · exact h.covered.arity t es (.body hs hk h') n hn
  · exact h.covered.arity t es (.negated hs hk h') n hn

/-- The input tables: the facts of the program and the imported rows. -/
def inputs (fs : List (Verif.Tag × List α)) (imported : List (Str × List α)) : List (Verif.Tag × List (List α)) :=
  tables (fs ++ imported.map fun x => (code x.1, x.2))

theorem ProgramFor.inputs (h : ProgramFor L el c ss Ss fs arity) (imported : List (Str × List α)) (q : Verif.Tag) (row : List α) :
    edbFacts (inputs fs imported) q row ↔ ∃ n, q = code n ∧ (Stated L el c.names ss n row ∨ (n, row) ∈ imported) := by
  rw [Tr.inputs, (tables_spec _).1, List.mem_append, h.facts]
  constructor
  · rintro (⟨n, rfl, h⟩ | h)
    · exact ⟨n, rfl, .inl h⟩
    · obtain ⟨⟨n, row'⟩, hm, h⟩ := List.mem_map.1 h
      cases h
      exact ⟨n, rfl, .inr hm⟩
  · rintro ⟨n, rfl, h | h⟩
    · exact .inl ⟨n, rfl, h⟩
    · exact .inr (List.mem_map.2 ⟨(n, row), h, rfl⟩)

theorem ProgramFor.edb (h : ProgramFor L el c ss Ss fs arity) {imported : List (Str × List α)}
    (himp : ∀ x ∈ imported, x.2.length = arity x.1) : EdbOK (Tr.inputs fs imported) (arityOf arity) := by
  refine ⟨(tables_spec _).2, fun x hx row hrow => ?_⟩
  obtain ⟨n, hq, h'⟩ := (h.inputs imported x.1 row).1 ⟨x.2, hx, hrow⟩
  rw [hq, arityOf_code]
  rcases h' with ⟨s, hs, t, es, hk, hn, hrow⟩ | h'
  · rw [← hrow.length_eq]
    exact h.covered.arity t es (.fact hs hk) n hn
  · exact himp _ h'

/-- facts by the numbers of predicates -/
def up (I : Facts α) : Interp α := fun q row => ∃ n, q = code n ∧ I n row

theorem up_code (I : Facts α) : (fun n => up I (code n)) = I := by
  funext n row
  exact propext ⟨fun ⟨m, h1, h2⟩ => code_inj h1 ▸ h2, fun h => ⟨n, rfl, h⟩⟩

/-- The sets that are closed under the rules are the same. -/
theorem ProgramFor.closed (h : ProgramFor L el c ss Ss fs arity) (hno : ∀ s ∈ ss, ∀ r, s.kind = .rule r → NoExistential r)
    (imported : List (Str × List α)) (M I : Interp α) :
    (SClosedUnder Ss (edbFacts (Tr.inputs fs imported)) M I ↔
      Closed L el c.names ss (fun n row => (n, row) ∈ imported) (fun n => M (code n)) (fun n => I (code n))) := by
  constructor
  · rintro ⟨h1, h2⟩
    refine ⟨fun m row hm => h1 _ _ ((h.inputs imported _ _).2 ⟨m, rfl, .inl hm⟩),
      fun m row hm => h1 _ _ ((h.inputs imported _ _).2 ⟨m, rfl, .inr hm⟩), fun s hs r hk m row hd => ?_⟩
    obtain ⟨S, hS, hf⟩ := forall₂_left h.rules (mem_ruleAsts.2 ⟨s, hs, hk⟩)
    exact h2 S hS _ _ ((derives_iff hf (h.covered.rules s hs r hk).2 (hno s hs r hk) _ _ _ _).2 ⟨m, rfl, hd⟩)
  · rintro ⟨h1, h2, h3⟩
    refine ⟨fun q row hq => ?_, fun S hS q row hd => ?_⟩
    · obtain ⟨m, rfl, h'⟩ := (h.inputs imported q row).1 hq
      exact h'.elim (h1 m row) (h2 m row)
    · obtain ⟨s, hs, r, hk, k1, k2⟩ := h.rule hS
      obtain ⟨m, rfl, hd'⟩ := (derives_iff k1 k2 (hno s hs r hk) _ _ q row).1 hd
      exact h3 s hs r hk m row hd'

theorem ProgramFor.meaning (h : ProgramFor L el c ss Ss fs arity) (hno : ∀ s ∈ ss, ∀ r, s.kind = .rule r → NoExistential r)
    (imported : List (Str × List α)) {A : Interp α}
    (hA : SIsStable Ss (edbFacts (Tr.inputs fs imported)) A) :
    Meaning L el c.names ss (fun n row => (n, row) ∈ imported) fun n row => A (code n) row := by
  intro n row
  refine (Iff.of_eq (congrFun (congrFun hA (code n)) row)).trans ⟨fun h' I hI => ?_, fun h' I hI => ?_⟩
  · have := h' (up I) ((h.closed hno imported A (up I)).2 (by rw [up_code]; exact hI))
    rw [← up_code I]
    exact this
  · exact h' _ ((h.closed hno imported A I).1 hI)

theorem ProgramFor.stable (h : ProgramFor L el c ss Ss fs arity) (hno : ∀ s ∈ ss, ∀ r, s.kind = .rule r → NoExistential r)
    (imported : List (Str × List α)) {M : Facts α}
    (hM : Meaning L el c.names ss (fun n row => (n, row) ∈ imported) M) :
    SIsStable Ss (edbFacts (Tr.inputs fs imported)) (up M) := by
  funext q row
  refine propext ⟨?_, fun h' => ?_⟩
  · rintro ⟨n, rfl, hm⟩ I hI
    have := (h.closed hno imported (up M) I).1 hI
    rw [up_code] at this
    exact (hM n row).1 hm _ this
  · obtain ⟨n, rfl, -⟩ := h' (up fun _ _ => True) ((h.closed hno imported (up M) _).2 (by
      rw [up_code, up_code]
      exact ⟨fun _ _ _ => trivial, fun _ _ _ => trivial, fun _ _ _ _ _ _ _ => trivial⟩))
    refine ⟨n, rfl, (hM n row).2 fun I hI => ?_⟩
    have := h' (up I) ((h.closed hno imported (up M) (up I)).2 (by rw [up_code, up_code]; exact hI))
    rw [← up_code I]
    exact this

theorem ProgramFor.stratified (h : ProgramFor L el c ss Ss fs arity) : SIsStratifiable Ss ↔ Stratified c.names ss := by
  constructor
  · rintro ⟨level, hl⟩
    refine ⟨fun n => level (code n), fun s hs r hk t es n hg hn => ?_⟩
    obtain ⟨S, hS, hf⟩ := forall₂_left h.rules (mem_ruleAsts.2 ⟨s, hs, hk⟩)
    obtain ⟨x, hx, n', hn', hpred, -⟩ := forall₂_left hf.head (mem_positives.2 hg)
    rw [hn] at hn'
    cases hn'
    obtain ⟨k1, k2, k3⟩ := hl S hS x hx
    rw [hpred] at k1 k2 k3
    refine ⟨fun t' es' m hg' hm => ?_, fun t' es' m hg' hm => ?_, fun hag t' es' m hg' hm => ?_⟩
    · obtain ⟨a, ha, m', hm', hp', -⟩ := forall₂_left hf.positive (mem_positives.2 hg')
      rw [hm] at hm'
      cases hm'
      have := k1 a ha
      rwa [hp'] at this
    · obtain ⟨a, ha, m', hm', hp', -⟩ := forall₂_left hf.negative (mem_negatives.2 hg')
      rw [hm] at hm'
      cases hm'
      have := k2 a ha
      rwa [hp'] at this
    · obtain ⟨a, ha, m', hm', hp', -⟩ := forall₂_left hf.positive (mem_positives.2 hg')
      rw [hm] at hm'
      cases hm'
      have := k3 ((hasAgg_iff hf).2 hag) a ha
      rwa [hp'] at this
  · rintro ⟨level, hl⟩
    refine ⟨arityOf level, fun S hS x hx => ?_⟩
    obtain ⟨s, hs, r, hk, hf, -⟩ := h.rule hS
    obtain ⟨⟨t, es⟩, hp, n, hn, hpred, -⟩ := forall₂_right hf.head hx
    obtain ⟨k1, k2, k3⟩ := hl s hs r hk t es n (mem_positives.1 hp) hn
    rw [hpred, arityOf_code]
    refine ⟨fun a ha => ?_, fun a ha => ?_, fun hag a ha => ?_⟩
    · obtain ⟨⟨t', es'⟩, hp', m, hm, hpred', -⟩ := forall₂_right hf.positive ha
      rw [hpred', arityOf_code]
      exact k1 t' es' m (mem_positives.1 hp') hm
    · obtain ⟨⟨t', es'⟩, hp', m, hm, hpred', -⟩ := forall₂_right hf.negative ha
      rw [hpred', arityOf_code]
      exact k2 t' es' m (mem_negatives.1 hp') hm
    · obtain ⟨⟨t', es'⟩, hp', m, hm, hpred', -⟩ := forall₂_right hf.positive ha
      rw [hpred', arityOf_code]
      exact k3 ((hasAgg_iff hf).1 hag) t' es' m (mem_positives.1 hp') hm

end

/-- **C51.**  If a program text is read without an error, its rules and facts are executed, and the answers
are what the text means: the least set of facts that contains the facts that are stated and imported, and that is closed
under the rules as they are written, with the abbreviations that are declared anywhere in the text. -/
theorem text_answers_partial {s : Str} {p : ProgramAst} (hparse : Parse.parse s = .ok p) {items : List Item}
    (hread : readProgram L s = .ok items) {N : Names} (hN : Declared p.statements N) {arity : Str → Nat}
    (hcov : Covered N p.statements arity) (hno : ∀ s ∈ p.statements, ∀ r, s.kind = .rule r → NoExistential r) :
    ∃ (Ss : List (SRule α)) (fs : List (Verif.Tag × List α)), sourceRules el items = some Ss ∧ sourceFacts el items = some fs ∧
      ∀ (imported : List (Str × List α)) (given : List Verif.Tag) (rules : List (NRule α))
        (cond : Nat → List (Nat × Nat) → List (List Nat)) (cfgs : List RuleCfg) (outs : List Verif.Tag) (fuel : Nat) (st : Eng α),
        (∀ x ∈ imported, x.2.length = arity x.1) → normalizeProgram given Ss = some rules → CondOK cond →
        cfgs.length = Ss.length →
        Eng.execute cond rules cfgs outs fuel (Eng.init (inputs fs imported)) = some (some st) →
        Meaning L el N p.statements (fun n row => (n, row) ∈ imported) fun n row => st.answers (code n) row := by
  have htr : translate L p = .ok items := by rw [readProgram, hparse] at hread; exact hread
  obtain ⟨Ss, fs, c, rfl, hSs, hfs, h⟩ := program_for (el := el) htr hN hcov
  exact ⟨Ss, fs, hSs, hfs, fun imported given rules cond cfgs outs fuel st himp hnorm hcond hlen hx =>
    h.meaning hno imported (execute_source_stable_partial hcond hnorm h.valid (h.ok hno) hlen (h.edb himp) hx)⟩

/-- **The program is rejected exactly if negation and aggregation are not stratified in the text.** -/
theorem text_rejected_partial {s : Str} {p : ProgramAst} (hparse : Parse.parse s = .ok p) {items : List Item}
    (hread : readProgram L s = .ok items) {N : Names} (hN : Declared p.statements N) {arity : Str → Nat}
    (hcov : Covered N p.statements arity) :
    ∃ (Ss : List (SRule α)) (fs : List (Verif.Tag × List α)), sourceRules el items = some Ss ∧ sourceFacts el items = some fs ∧
      ∀ (given : List Verif.Tag) (rules : List (NRule α)) (cond : Nat → List (Nat × Nat) → List (List Nat)) (cfgs : List RuleCfg)
        (outs : List Verif.Tag) (fuel : Nat) (st : Eng α), normalizeProgram given Ss = some rules → CondOK cond →
        (Eng.execute cond rules cfgs outs fuel st = none ↔ ¬ Stratified N p.statements) := by
  have htr : translate L p = .ok items := by rw [readProgram, hparse] at hread; exact hread
  obtain ⟨Ss, fs, c, rfl, hSs, hfs, h⟩ := program_for (el := el) htr hN hcov
  exact ⟨Ss, fs, hSs, hfs, fun given rules cond cfgs outs fuel st hnorm hcond => by
    rw [execute_source_rejects hcond hnorm, h.stratified]⟩

/-- **The meaning of a text in which negation is stratified is unique.** -/
theorem text_unique_partial {p : ProgramAst} {items : List Item} (htr : translate L p = .ok items) {N : Names}
    (hN : Declared p.statements N) {arity : Str → Nat} (hcov : Covered N p.statements arity)
    (hno : ∀ s ∈ p.statements, ∀ r, s.kind = .rule r → NoExistential r) (hst : Stratified N p.statements)
    (imported : List (Str × List α)) {M M' : Facts α} (hM : Meaning L el N p.statements (fun n row => (n, row) ∈ imported) M)
    (hM' : Meaning L el N p.statements (fun n row => (n, row) ∈ imported) M') : M = M' := by
  obtain ⟨Ss, fs, c, rfl, hSs, hfs, h⟩ := program_for (el := el) htr hN hcov
  have := source_stable_unique (h.stratified.2 hst) h.valid (h.stable hno imported hM) (h.stable hno imported hM')
  rw [← up_code M, this, up_code]

/-! ### Termination -/

theorem ProgramFor.functionFree {ss : List StmtAst} {Ss : List (SRule α)} {fs : List (Verif.Tag × List α)} {arity : Str → Nat}
    (h : ProgramFor L el c ss Ss fs arity) (hnew : ∀ s ∈ ss, ∀ r, s.kind = .rule r → NoNewValues r) :
    ∀ S ∈ Ss, SFunctionFree S := by
  intro S hS
  obtain ⟨s, hs, r, hk, hf, -⟩ := h.rule hS
  have hn := hnew s hs r hk
  refine ⟨fun o ho v e he => ?_, fun a ha o ho => ?_, fun x hx t ht => ?_, fun x hx t ht k i d hagg => ?_⟩
  · obtain ⟨g, hg, hc⟩ := forall₂_right hf.operations ho
    rcases hc.assign with ⟨h1, -⟩ | ⟨n, e', o', h1, h2, -, h3⟩
    · rw [h1] at he; cases he
    · rw [h2] at he
      cases he
      rcases hn.assign g (mem_conditions.1 hg).1 n e' h1 with h4 | ⟨t, es, h4, e'', h5, h6⟩
      · exact .inr (h3 h4)
      · obtain ⟨a, ha, _, -, -, hargs⟩ := forall₂_left hf.positive (mem_positives.2 h4)
        obtain ⟨b, hb, hab⟩ := forall₂_left hargs h5
        refine .inl ⟨a, ha, ?_⟩
        cases b with
        | anon => rw [show bare e'' = .anonymous from hab] at h6; cases h6
        | var w => obtain ⟨m, hm, rfl⟩ := hab; rw [h6] at hm; cases hm; exact hb
        | const => rw [hab.1] at h6; cases h6
        | oper => rw [hab.1] at h6; cases h6
  · obtain ⟨⟨t, es⟩, hp, _, -, -, hargs⟩ := forall₂_right hf.negative ha
    obtain ⟨e, he, hab⟩ := forall₂_right hargs ho
    exact hab.2.2.2 (hn.negated t es (mem_negatives.1 hp) e he)
  · obtain ⟨⟨t', es⟩, hp, hargs⟩ := forall₂_right hf.heads hx
    obtain ⟨e, he, hab⟩ := forall₂_right hargs ht
    exact hab (hn.head t' es (mem_positives.1 hp) e he)
  · obtain ⟨⟨t', es⟩, hp, _, -, -, hargs⟩ := forall₂_right hf.head hx
    obtain ⟨e, he, hab⟩ := forall₂_right hargs ht
    obtain ⟨k', i', ns, h1, -, -, -, -, h2⟩ := hab.agg hagg
    exact h2 (hn.aggregated k' i' _ (List.mem_filterMap.2 ⟨e, mem_arguments.2 ⟨t', es, mem_positives.1 hp, he⟩, h1⟩))

/-- **Programs terminate** if negation is stratified and rules do not compute new values. -/
theorem text_terminates_partial {s : Str} {p : ProgramAst} (hparse : Parse.parse s = .ok p) {items : List Item}
    (hread : readProgram L s = .ok items) {N : Names} (hN : Declared p.statements N) {arity : Str → Nat}
    (hcov : Covered N p.statements arity) (hno : ∀ s ∈ p.statements, ∀ r, s.kind = .rule r → NoExistential r)
    (hst : Stratified N p.statements) (hnew : ∀ s ∈ p.statements, ∀ r, s.kind = .rule r → NoNewValues r) :
    ∃ (Ss : List (SRule α)) (fs : List (Verif.Tag × List α)), sourceRules el items = some Ss ∧ sourceFacts el items = some fs ∧
      ∀ (imported : List (Str × List α)) (given : List Verif.Tag) (rules : List (NRule α))
        (cond : Nat → List (Nat × Nat) → List (List Nat)) (cfgs : List RuleCfg) (outs : List Verif.Tag),
        (∀ x ∈ imported, x.2.length = arity x.1) → normalizeProgram given Ss = some rules → CondOK cond →
        cfgs.length = Ss.length →
        ∃ fuel st, Eng.execute cond rules cfgs outs fuel (Eng.init (inputs fs imported)) = some (some st) := by
  have htr : translate L p = .ok items := by rw [readProgram, hparse] at hread; exact hread
  obtain ⟨Ss, fs, c, rfl, hSs, hfs, h⟩ := program_for (el := el) htr hN hcov
  exact ⟨Ss, fs, hSs, hfs, fun imported given rules cond cfgs outs himp hnorm hcond hlen =>
    execute_source_terminates hcond hnorm h.valid (h.ok hno) hlen (h.edb himp) (h.stratified.2 hst) (h.functionFree hnew) outs⟩

end

end Verif.Tr
