import Verif.TupleBuffer
import Verif.PropTries

/-!
# Filters and transformations of imported tuples (C33)

Model of the patterns of `TupleBuffer` (/repo/nemo-physical/src/tabular/buffer/tuple_buffer.rs:233-501, filters.rs): each tuple of
data values that is added is checked against a list of patterns, transformed, translated to storage values and written.
The functions of filters and transformations are parameters (their evaluation is the subject of C14).
-/

set_option linter.unusedSimpArgs false
set_option linter.unusedSectionVars false

namespace Verif
variable {β α : Type}

/-! ## Model -/

/-- `FilterTransformPattern` (/repo/nemo-physical/src/tabular/filters.rs:31-36).  `filter` is `evaluate_bool` of the filter
program: `none` means a panic (a reference to a position that does not exist), `some none` an undefined value.
A transformation is a position and `evaluate_data` of its program. -/
structure Pattern (β : Type) where
  filter : List β → Option (Option Bool)
  transforms : List (Nat × (List β → Option β))

/-- The loop over the transformations (tuple_buffer.rs:485-494): the resulting tuple, and whether all values are defined.  Values
that were computed before an undefined one remain in the tuple. -/
def applyTransforms (orig : List β) : List (Nat × (List β → Option β)) → List β → List β × Bool
  | [], cur => (cur, true)
  | t :: ts, cur =>
    match t.2 orig with
    | some v => applyTransforms orig ts (cur.set t.1 v)
    | none => (cur, false)

/-- The loop of `match_filters_and_transform` over the patterns (tuple_buffer.rs:480-500, `pattern_matches` 467-472): the tuple
afterwards, and whether there is a match. -/
def matchPatterns (input : Nat) : List (Pattern β) → List β → Option (List β × Bool)
  | [], cur => some (cur, false)
  | p :: ps, cur =>
    match p.filter (cur.take input) with
    | none => none
    | some (some true) =>
      match applyTransforms cur p.transforms cur with
      | (cur', true) => some (cur', true)
      | (cur', false) => matchPatterns input ps cur'
    | some _ => matchPatterns input ps cur

/-- `match_filters_and_transform` (tuple_buffer.rs:474-501) -/
def matchFilters (input : Nat) (ps : List (Pattern β)) (cur : List β) : Option (List β × Bool) :=
  if ps.isEmpty then some (cur, true) else matchPatterns input ps cur

/-- `output_columns_from_patterns` (tuple_buffer.rs:309-316) and its use (276, 296-297) -/
def outputColumns (input : Nat) (ps : List (Pattern β)) : Nat :=
  match ps with
  | [] => input
  | p :: _ => if p.transforms.isEmpty then input else p.transforms.length

/-- `TupleBuffer` (tuple_buffer.rs:234-263): the tables that were written, the current tuple of data values and the position of
the next value. -/
structure PBuf (β α : Type) where
  buf : TBuf α
  data : List β
  index : Nat
  input : Nat
  patterns : List (Pattern β)

variable [SVal α]

/-- `with_patterns` (tuple_buffer.rs:272-292); `zero` is the value that is "picked arbitrarily". -/
def PBuf.new (zero : β) (input : Nat) (ps : List (Pattern β)) : PBuf β α :=
  ⟨.new (outputColumns input ps), List.replicate (max input (outputColumns input ps)) zero, 0, input, ps⟩

/-- `add_tuple_data_value` (tuple_buffer.rs:365-382); `enc` is the translation to storage values by the dictionary. -/
def PBuf.add (enc : β → α) (b : PBuf β α) (v : β) : Option (PBuf β α) :=
  let data := b.data.set b.index v
  if b.input ≤ b.index + 1 then
    match matchFilters b.input b.patterns data with
    | none => none
    | some (data', true) =>
      (b.buf.writeTuple ((data'.take b.buf.cols).map enc)).map fun buf => { b with buf := buf, data := data', index := 0 }
    | some (data', false) => some { b with data := data', index := 0 }
  else some { b with data := data, index := b.index + 1 }

/-- `drop_current_tuple` (tuple_buffer.rs:386-388) -/
def PBuf.drop (b : PBuf β α) : PBuf β α := { b with index := 0 }

/-- add a sequence of values -/
def PBuf.addAll (enc : β → α) (b : PBuf β α) : List β → Option (PBuf β α)
  | [] => some b
  | v :: vs =>
    match b.add enc v with
    | none => none
    | some b' => b'.addAll enc vs

/-! ## Specification -/

/-- The result of a pattern for a tuple: nothing if its filter is not true or one of its transformations is not defined, and
otherwise the transformed tuple. -/
def Pattern.result (p : Pattern β) (row : List β) : Option (List β) :=
  if p.filter row = some (some true) then (if p.transforms.isEmpty then some row else p.transforms.mapM fun t => t.2 row) else none

/-- **Specification of import filters**: the result of the first pattern that has one, and the tuple itself if there are no
patterns. -/
def filterResult (ps : List (Pattern β)) (row : List β) : Option (List β) :=
  if ps.isEmpty then some row else ps.findSome? (·.result row)

/-- Conditions on patterns: all patterns have the same output columns, their transformations only use the tuple (and not the
columns that were added for the output), and no filter panics. -/
structure PatternOK (input output : Nat) (p : Pattern β) : Prop where
  columns : (p.transforms = [] ∧ output = input) ∨ (p.transforms ≠ [] ∧ p.transforms.map (·.1) = List.range output)
  local_ : ∀ t ∈ p.transforms, ∀ row rest : List β, row.length = input → t.2 (row ++ rest) = t.2 row
  filter : ∀ row : List β, row.length = input → p.filter row ≠ none

/-- If the pattern accepts a tuple, then its transformations are defined, or at least the first one is undefined. -/
def Pattern.Atomic (p : Pattern β) (row : List β) : Prop :=
  p.filter row = some (some true) → (∀ t ∈ p.transforms, t.2 row ≠ none) ∨ ∃ t ts, p.transforms = t :: ts ∧ t.2 row = none

/-! ## Proofs -/

section proofs
omit [SVal α]

theorem applyTransforms_length (orig : List β) (ts : List (Nat × (List β → Option β))) (cur : List β) :
    (applyTransforms orig ts cur).1.length = cur.length := by
  induction ts generalizing cur with
  | nil => rfl
  | cons t ts ih =>
    rw [applyTransforms]
    split
    · rw [ih, List.length_set]
    · rfl

/-- positions are written one after the other -/
theorem applyTransforms_from (orig : List β) (ts : List (Nat × (List β → Option β))) : ∀ (k : Nat) (done cur : List β),
    done.length = k → ts.map (·.1) = (List.range ts.length).map (· + k) → ts.length ≤ cur.length →
    applyTransforms orig ts (done ++ cur) = match ts.mapM fun t => t.2 orig with
      | some vs => (done ++ vs ++ cur.drop ts.length, true)
      | none => ((applyTransforms orig ts (done ++ cur)).1, false) := by
  induction ts with
  | nil => intro k done cur _ _ _; simp [applyTransforms]
  | cons t ts ih =>
    intro k done cur hd hp hl
    rw [List.length_cons, List.range_succ_eq_map, List.map_cons, List.map_cons, List.map_map] at hp
    injection hp with hp1 hp2
    obtain ⟨c, cur, rfl⟩ : ∃ c cs, cur = c :: cs := by
      cases cur with
      | nil => simp at hl
      | cons c cs => exact ⟨c, cs, rfl⟩
    rw [applyTransforms]
    cases ht : t.2 orig with
    | none => simp [ht]
    | some v =>
      have hset : (done ++ c :: cur).set t.1 v = (done ++ [v]) ++ cur := by
        rw [hp1, Nat.zero_add, ← hd, List.set_append_right _ _ (Nat.le_refl _), Nat.sub_self, List.set_cons_zero,
          List.append_assoc]
        rfl
      dsimp only
      rw [hset, ih (k + 1) (done ++ [v]) cur (by simp [hd]) (by
        rw [hp2]; exact List.map_congr_left fun a _ => by simp; omega) (by simpa using hl)]
      simp only [List.mapM_cons, ht, Option.bind_eq_bind, Option.bind_some]
      cases hm : ts.mapM fun t => t.2 orig with
      | none => simp
      | some vs => simp

theorem applyTransforms_spec {input output : Nat} {p : Pattern β} (hp : PatternOK input output p) (row rest : List β)
    (hr : row.length = input) (hl : max input output ≤ (row ++ rest).length) :
    (∀ out, (if p.transforms.isEmpty then some row else p.transforms.mapM fun t => t.2 row) = some out →
      ∃ cur', applyTransforms (row ++ rest) p.transforms (row ++ rest) = (cur', true) ∧ cur'.take output = out) ∧
    ((if p.transforms.isEmpty then some row else p.transforms.mapM fun t => t.2 row) = none →
      (applyTransforms (row ++ rest) p.transforms (row ++ rest)).2 = false) := by
  have hlen : max input output ≤ row.length + rest.length := by simpa using hl
  rcases hp.columns with ⟨h1, h2⟩ | ⟨h1, h2⟩
  · rw [h1]
    refine ⟨?_, by simp⟩
    intro out ho
    simp only [List.isEmpty_nil, if_true, Option.some.injEq] at ho
    subst ho
    exact ⟨_, rfl, by rw [h2, ← hr, List.take_left]⟩
  · have hne : p.transforms.isEmpty = false := by cases hx : p.transforms <;> simp_all
    have hn : p.transforms.length = output := by simpa using congrArg List.length h2
    have hfrom := applyTransforms_from (row ++ rest) p.transforms 0 [] (row ++ rest) rfl (by
      rw [h2, hn]; simp) (by rw [hn]; exact le_trans (le_max_right _ _) hl)
    have hmap : (p.transforms.mapM fun t => t.2 (row ++ rest)) = p.transforms.mapM fun t => t.2 row := by
      have : ∀ ts : List (Nat × (List β → Option β)), (∀ t ∈ ts, t.2 (row ++ rest) = t.2 row) →
          (ts.mapM fun t => t.2 (row ++ rest)) = ts.mapM fun t => t.2 row := by
        intro ts
        induction ts with
        | nil => intro _; rfl
        | cons t ts ih =>
          intro h
          rw [List.mapM_cons, List.mapM_cons, h t (by simp), ih fun t ht => h t (by simp [ht])]
      exact this _ fun t ht => hp.local_ t ht row rest hr
    rw [hmap] at hfrom
    rw [hne]
    simp only [Bool.false_eq_true, if_false]
    refine ⟨fun out ho => ?_, fun ho => ?_⟩
    · rw [ho] at hfrom
      refine ⟨_, hfrom, ?_⟩
      have hol : out.length = output := by
        have : ∀ (ts : List (Nat × (List β → Option β))) (out : List β), (ts.mapM fun t => t.2 row) = some out →
            out.length = ts.length := by
          intro ts
          induction ts with
          | nil => intro out h; simp at h; simp [← h]
          | cons t ts ih =>
            intro out h
            rw [List.mapM_cons] at h
            cases ht : t.2 row with
            | none => simp [ht] at h
            | some v =>
              cases hm : ts.mapM fun t => t.2 row with
              | none => simp [ht, hm] at h
              | some vs =>
                simp only [ht, hm, Option.bind_eq_bind, Option.bind_some, Option.pure_def, Option.some.injEq] at h
                rw [← h]; simp [ih vs hm]
        rw [this _ _ ho, hn]
      simp [List.take_append_of_le_length (Nat.le_of_eq hol.symm), ← hol]
    · rw [ho] at hfrom
      dsimp only at hfrom
      simp only [List.nil_append] at hfrom
      rw [hfrom]

/-- a first undefined transformation does not change the tuple -/
theorem applyTransforms_first {orig cur : List β} {t : Nat × (List β → Option β)} {ts : List (Nat × (List β → Option β))}
    (h : t.2 orig = none) : applyTransforms orig (t :: ts) cur = (cur, false) := by
  rw [applyTransforms, h]

theorem matchPatterns_spec {input output : Nat} (ps : List (Pattern β)) (hp : ∀ p ∈ ps, PatternOK input output p) (row rest : List β)
    (hr : row.length = input) (hl : max input output ≤ (row ++ rest).length)
    (ha : ∀ (i : Nat) p, ps[i]? = some p → i + 1 < ps.length → p.Atomic row) :
    ∃ cur', cur'.length = (row ++ rest).length ∧
      matchPatterns input ps (row ++ rest) = some (cur', (ps.findSome? (·.result row)).isSome) ∧
      ∀ out, ps.findSome? (·.result row) = some out → cur'.take output = out := by
  induction ps with
  | nil => exact ⟨row ++ rest, rfl, rfl, by simp⟩
  | cons p ps ih =>
    have hp1 := hp p List.mem_cons_self
    have ih' := ih (fun p h => hp p (List.mem_cons_of_mem _ h)) (fun i q hq hlt => ha (i + 1) q (by simpa using hq) (by simpa using hlt))
    have htake : (row ++ rest).take input = row := by rw [← hr, List.take_left]
    rw [matchPatterns, htake, List.findSome?_cons]
    have hres : p.result row = if p.filter row = some (some true) then
      (if p.transforms.isEmpty then some row else p.transforms.mapM fun t => t.2 row) else none := rfl
    rcases hf : p.filter row with _ | _ | _ | _
    · exact absurd hf (hp1.filter row hr)
    · rw [hf] at hres; rw [hres]; simpa using ih'
    · rw [hf] at hres; rw [hres]; simpa using ih'
    · rw [hf, if_pos rfl] at hres
      obtain ⟨s1, s2⟩ := applyTransforms_spec hp1 row rest hr hl
      rw [hres]
      cases ho : (if p.transforms.isEmpty then some row else p.transforms.mapM fun t => t.2 row) with
      | some out =>
        obtain ⟨cur', e1, e2⟩ := s1 out ho
        refine ⟨cur', ?_, ?_, ?_⟩
        · have := applyTransforms_length (row ++ rest) p.transforms (row ++ rest)
          rw [e1] at this; exact this
        · dsimp only; rw [e1]; rfl
        · intro out' h; cases h; exact e2
      | none =>
        have e1 := s2 ho
        have e0 : applyTransforms (row ++ rest) p.transforms (row ++ rest) =
          ((applyTransforms (row ++ rest) p.transforms (row ++ rest)).1, false) := by rw [← e1]
        dsimp only
        rw [e0]
        dsimp only
        cases ps with
        | nil =>
          refine ⟨_, applyTransforms_length _ _ _, rfl, by simp⟩
        | cons q qs =>
          -- the tuple is not changed
          have hat := ha 0 p rfl (by simp) hf
          have : (applyTransforms (row ++ rest) p.transforms (row ++ rest)).1 = row ++ rest := by
            rcases hat with h | ⟨t, ts, h1, h2⟩
            · exfalso
              have hx : ∀ ts : List (Nat × (List β → Option β)), (∀ t ∈ ts, t.2 row ≠ none) →
                  (ts.mapM fun t => t.2 row) ≠ none := by
                intro ts
                induction ts with
                | nil => intro _; simp
                | cons t ts ih =>
                  intro h
                  obtain ⟨v, hv⟩ := Option.ne_none_iff_exists'.1 (h t (by simp))
                  obtain ⟨vs, hvs⟩ := Option.ne_none_iff_exists'.1 (ih fun t ht => h t (by simp [ht]))
                  rw [List.mapM_cons, hv, hvs]
                  simp
              split at ho
              · cases ho
              · exact hx _ h ho
            · have h3 : t.2 (row ++ rest) = none := by
                rw [hp1.local_ t (by rw [h1]; simp) row rest hr, h2]
              rw [h1, applyTransforms_first h3]
          rw [this]
          exact ih'

theorem matchFilters_spec {input output : Nat} (ps : List (Pattern β)) (hp : ∀ p ∈ ps, PatternOK input output p)
    (ho : ps = [] → output = input) (row rest : List β)
    (hr : row.length = input) (hl : max input output ≤ (row ++ rest).length)
    (ha : ∀ (i : Nat) p, ps[i]? = some p → i + 1 < ps.length → p.Atomic row) :
    ∃ cur', cur'.length = (row ++ rest).length ∧
      matchFilters input ps (row ++ rest) = some (cur', (filterResult ps row).isSome) ∧
      ∀ out, filterResult ps row = some out → cur'.take output = out := by
  unfold matchFilters filterResult
  cases ps with
  | nil =>
    refine ⟨row ++ rest, rfl, rfl, ?_⟩
    intro out h
    cases h
    rw [ho rfl, ← hr, List.take_left]
  | cons p ps =>
    simp only [List.isEmpty_cons, Bool.false_eq_true, if_false]
    exact matchPatterns_spec _ hp row rest hr hl ha

theorem outputColumns_spec {input output : Nat} {ps : List (Pattern β)} (hp : ∀ p ∈ ps, PatternOK input output p)
    (ho : ps = [] → output = input) : outputColumns input ps = output := by
  cases ps with
  | nil => exact (ho rfl).symm
  | cons p ps =>
    rcases (hp p List.mem_cons_self).columns with ⟨h1, h2⟩ | ⟨h1, h2⟩
    · simp [outputColumns, h1, h2]
    · have : p.transforms.isEmpty = false := by cases hx : p.transforms <;> simp_all
      have h3 := congrArg List.length h2
      rw [outputColumns, this]
      simpa using h3

end proofs

/-- the state between two tuples -/
structure PBuf.Ready (b : PBuf β α) (output : Nat) : Prop where
  ok : b.buf.OK
  cols : b.buf.cols = output
  length : b.data.length = max b.input output
  index : b.index = 0

/-- adding the values of a tuple, except for the last one -/
theorem PBuf.addPrefix (enc : β → α) (row : List β) : ∀ (b : PBuf β α) (vs : List β), b.index + row.length < b.input →
    b.input ≤ b.data.length → b.addAll enc (row ++ vs) =
      ({ b with data := b.data.take b.index ++ row ++ b.data.drop (b.index + row.length), index := b.index + row.length } :
        PBuf β α).addAll enc vs := by
  induction row with
  | nil => intro b vs _ _; simp
  | cons v row ih =>
    intro b vs hlt hle
    rw [List.length_cons] at hlt
    rw [List.cons_append, PBuf.addAll, PBuf.add]
    rw [if_neg (by omega)]
    dsimp only
    rw [ih _ _ (by dsimp only; omega) (by simpa using hle)]
    dsimp only
    have hl : b.index < b.data.length := by omega
    congr 1
    have e : (b.data.set b.index v).take (b.index + 1) ++ row ++ (b.data.set b.index v).drop (b.index + 1 + row.length) =
        b.data.take b.index ++ v :: row ++ b.data.drop (b.index + (row.length + 1)) := by
      rw [List.set_eq_take_append_cons_drop, if_pos hl]
      have h1 : (b.data.take b.index).length = b.index := by simp; omega
      rw [List.take_append, h1, List.take_of_length_le (by omega), Nat.add_sub_cancel_left, List.drop_append, h1,
        List.drop_of_length_le (by omega : (b.data.take b.index).length ≤ b.index + 1 + row.length)]
      simp only [List.nil_append, List.take_succ_cons, List.take_zero, List.append_assoc, List.singleton_append, List.cons_append]
      rw [show b.index + 1 + row.length - b.index = row.length + 1 by omega, List.drop_succ_cons, List.drop_drop]
      congr 4
      omega
    rw [PBuf.mk.injEq]
    exact ⟨rfl, e, by rw [List.length_cons]; omega, rfl, rfl⟩

/-- one tuple -/
theorem PBuf.addRow_spec (enc : β → α) {b : PBuf β α} {output : Nat} (hb : b.Ready output) (hi : 0 < b.input)
    (hp : ∀ p ∈ b.patterns, PatternOK b.input output p) (ho : b.patterns = [] → output = b.input) (row : List β)
    (hr : row.length = b.input) (ha : ∀ (i : Nat) p, b.patterns[i]? = some p → i + 1 < b.patterns.length → p.Atomic row)
    (vs : List β) : ∃ b' : PBuf β α, b.addAll enc (row ++ vs) = b'.addAll enc vs ∧ b'.Ready output ∧ b'.input = b.input ∧
      b'.patterns = b.patterns ∧
      b'.buf.stored.Perm (((filterResult b.patterns row).map (List.map enc)).toList ++ b.buf.stored) := by
  obtain ⟨pre, v, rfl⟩ : ∃ pre v, row = pre ++ [v] := by
    have hne : row ≠ [] := by rintro rfl; simp at hr; omega
    exact ⟨row.dropLast, row.getLast hne, (List.dropLast_append_getLast hne).symm⟩
  rw [List.length_append, List.length_singleton] at hr
  have hdl : b.input ≤ b.data.length := by rw [hb.length]; exact le_max_left _ _
  rw [List.append_assoc, b.addPrefix enc pre _ (by rw [hb.index]; omega) hdl, hb.index]
  simp only [List.take_zero, List.nil_append, Nat.zero_add, List.singleton_append]
  rw [PBuf.addAll, PBuf.add]
  dsimp only
  rw [if_pos (by omega)]
  have hset : (pre ++ b.data.drop pre.length).set pre.length v = (pre ++ [v]) ++ b.data.drop (pre.length + 1) := by
    rw [List.set_append_right _ _ (Nat.le_refl _), Nat.sub_self]
    have : pre.length < b.data.length := by omega
    rw [List.drop_eq_getElem_cons this, List.set_cons_zero, List.append_assoc]
    rfl
  rw [hset]
  obtain ⟨cur', c1, c2, c3⟩ := matchFilters_spec b.patterns hp ho (pre ++ [v]) (b.data.drop (pre.length + 1))
    (by simpa using hr) (by simp; rw [hb.length]; omega) ha
  have hlen : ((pre ++ [v]) ++ b.data.drop (pre.length + 1)).length = max b.input output := by
    simp; rw [hb.length]; omega
  rw [c2]
  cases hf : filterResult b.patterns (pre ++ [v]) with
  | none =>
    refine ⟨{ b with data := cur', index := 0 }, by simp, ⟨hb.ok, hb.cols, by rw [c1, hlen], rfl⟩, rfl, rfl, by simp⟩
  | some out =>
    have hcols : (cur'.take b.buf.cols) = out := by rw [hb.cols]; exact c3 out hf
    have hol : out.length = output := by
      have := congrArg List.length (c3 out hf)
      rw [List.length_take, c1, hlen] at this
      omega
    obtain ⟨b', w1, w2, w3, w4, w5⟩ := TBuf.writeTuple_spec hb.ok (r := out.map enc) (by rw [List.length_map, hol, hb.cols])
    simp only [Option.isSome_some]
    rw [hcols, w1]
    refine ⟨{ b with buf := b', data := cur', index := 0 }, by simp, ⟨w2, w3.trans hb.cols, by rw [c1, hlen], rfl⟩, rfl, rfl, ?_⟩
    simpa using w5

theorem PBuf.addRows_spec (enc : β → α) {output : Nat} (rows : List (List β)) : ∀ {b : PBuf β α}, b.Ready output → 0 < b.input →
    (∀ p ∈ b.patterns, PatternOK b.input output p) → (b.patterns = [] → output = b.input) → (∀ row ∈ rows, row.length = b.input) →
    (∀ row ∈ rows, ∀ (i : Nat) p, b.patterns[i]? = some p → i + 1 < b.patterns.length → p.Atomic row) →
    ∃ b' : PBuf β α, b.addAll enc rows.flatten = some b' ∧ b'.Ready output ∧
      b'.buf.stored.Perm ((rows.filterMap fun row => (filterResult b.patterns row).map (List.map enc)) ++ b.buf.stored) := by
  induction rows with
  | nil => intro b hb _ _ _ _ _; exact ⟨b, rfl, hb, by simp⟩
  | cons row rows ih =>
    intro b hb hi hp ho hr ha
    obtain ⟨b1, e1, e2, e3, e4, e5⟩ := b.addRow_spec enc hb hi hp ho row (hr row (by simp)) (ha row (by simp)) rows.flatten
    obtain ⟨b2, f1, f2, f3⟩ := ih e2 (by rw [e3]; exact hi) (by rw [e3, e4]; exact hp) (by rw [e3, e4]; exact ho)
      (fun r h => by rw [e3]; exact hr r (by simp [h])) (fun r h => by rw [e4]; exact ha r (by simp [h]))
    refine ⟨b2, by rw [List.flatten_cons, e1, f1], f2, ?_⟩
    refine f3.trans ((List.Perm.append_left _ e5).trans ?_)
    rw [e4, List.filterMap_cons]
    cases filterResult b.patterns row with
    | none => simp
    | some out => simp

/-- **C33.**  After a sequence of tuples was added to a buffer with patterns, its table contains exactly the results of the tuples
according to the patterns, if the patterns have the same columns and fail atomically.  (The last pattern may fail in any
way, so the condition on failures is empty for a single pattern.) -/
theorem PBuf.import_spec_partial (enc : β → α) (zero : β) {input output : Nat} (hi : 0 < input) (hpos : 0 < output) {ps : List (Pattern β)}
    (hp : ∀ p ∈ ps, PatternOK input output p) (ho : ps = [] → output = input) (rows : List (List β))
    (hr : ∀ row ∈ rows, row.length = input)
    (ha : ∀ row ∈ rows, ∀ (i : Nat) p, ps[i]? = some p → i + 1 < ps.length → p.Atomic row) :
    ∃ (b : PBuf β α) (table : List (List α)), (PBuf.new zero input ps : PBuf β α).addAll enc rows.flatten = some b ∧ b.buf.finalize = some table ∧
      SortedRows table ∧ ∀ x, x ∈ table ↔ ∃ row ∈ rows, ∃ out, filterResult ps row = some out ∧ x = out.map enc := by
  have hout := outputColumns_spec hp ho
  have hready : (PBuf.new zero input ps : PBuf β α).Ready output := by
    refine ⟨?_, ?_, ?_, rfl⟩
    · unfold PBuf.new; dsimp only; rw [hout]; exact TBuf.ok_new hpos
    · unfold PBuf.new; dsimp only; rw [hout]; rfl
    · unfold PBuf.new; dsimp only; rw [hout]; simp
  obtain ⟨b, h1, h2, h3⟩ := PBuf.addRows_spec enc rows hready hi hp ho hr ha
  obtain ⟨table, t1, t2, t3⟩ := TBuf.finalize_spec h2.ok
  refine ⟨b, table, h1, t1, t2, fun x => ?_⟩
  rw [t3.mem_iff, h3.mem_iff]
  have : (PBuf.new zero input ps : PBuf β α).buf.stored = [] := rfl
  rw [this, List.append_nil, List.mem_filterMap]
  simp only [Option.map_eq_some_iff]
  constructor
  · rintro ⟨row, g1, out, g2, g3⟩; exact ⟨row, g1, out, g2, g3.symm⟩
  · rintro ⟨row, g1, out, g2, g3⟩; exact ⟨row, g1, out, g2, g3.symm⟩

/-! ## Examples -/

namespace ImportExample
attribute [local instance] natSVal

/-- Rows with a first value above 3 are swapped, with subtraction that is undefined if the result is negative; other rows are
kept as they are. -/
def swap : Pattern Nat :=
  ⟨fun row => some (some (decide (3 < row.headD 0))), [(0, fun row => if row.getD 1 0 < 5 then none else some (row.getD 1 0 - 5)),
    (1, fun row => some (row.getD 0 0))]⟩
/-- the second pattern -/
def keep : Pattern Nat := ⟨fun _ => some (some true), [(0, fun row => some (row.getD 0 0)), (1, fun row => some (row.getD 1 0))]⟩

theorem swap_ok : PatternOK 2 2 swap where
  columns := .inr ⟨by decide, rfl⟩
  local_ t ht row rest hr := by
    match row, hr with
    | [a, b], _ =>
      rcases List.mem_cons.1 ht with rfl | ht
      · rfl
      · rcases List.mem_cons.1 ht with rfl | ht
        · rfl
        · simp at ht
  filter row _ := by simp [swap]

theorem keep_ok : PatternOK 2 2 keep where
  columns := .inr ⟨by decide, rfl⟩
  local_ t ht row rest hr := by
    match row, hr with
    | [a, b], _ =>
      rcases List.mem_cons.1 ht with rfl | ht
      · rfl
      · rcases List.mem_cons.1 ht with rfl | ht
        · rfl
        · simp at ht
  filter row _ := by simp [keep]

/-- The rows (1,2), (4,7), (4,3): the first does not match the first pattern, the second is swapped, and the first pattern is not
defined for the third. -/
theorem import_example : ∃ (b : PBuf Nat Nat) (table : List (List Nat)),
    (PBuf.new 0 2 [swap, keep] : PBuf Nat Nat).addAll id [[1, 2], [4, 7], [4, 3]].flatten = some b ∧ b.buf.finalize = some table ∧
      SortedRows table ∧ ∀ x, x ∈ table ↔ x = [1, 2] ∨ x = [2, 4] ∨ x = [4, 3] := by
  obtain ⟨b, table, h1, h2, h3, h4⟩ := PBuf.import_spec_partial (α := Nat) id 0 (input := 2) (output := 2) (by omega) (by omega)
    (ps := [swap, keep]) (by
      intro p hp
      rcases List.mem_cons.1 hp with rfl | hp
      · exact swap_ok
      · rw [List.mem_singleton.1 hp]; exact keep_ok) (by simp) [[1, 2], [4, 7], [4, 3]] (by decide) (by
      intro row hrow i p hp hi
      match i, hi with
      | 0, _ =>
        cases hp
        intro _
        have : row = [1, 2] ∨ row = [4, 7] ∨ row = [4, 3] := by simpa using hrow
        rcases this with rfl | rfl | rfl
        · exact .inr ⟨_, _, rfl, by decide⟩
        · left; decide
        · exact .inr ⟨_, _, rfl, by decide⟩)
  refine ⟨b, table, h1, h2, h3, fun x => ?_⟩
  rw [h4]
  constructor
  · rintro ⟨row, hrow, out, ho, rfl⟩
    have : row = [1, 2] ∨ row = [4, 7] ∨ row = [4, 3] := by simpa using hrow
    rcases this with rfl | rfl | rfl
    · left; have : filterResult [swap, keep] [1, 2] = some [1, 2] := by decide
      rw [this] at ho; cases ho; rfl
    · right; left; have : filterResult [swap, keep] [4, 7] = some [2, 4] := by decide
      rw [this] at ho; cases ho; rfl
    · right; right; have : filterResult [swap, keep] [4, 3] = some [4, 3] := by decide
      rw [this] at ho; cases ho; rfl
  · rintro (rfl | rfl | rfl)
    · exact ⟨[1, 2], by simp, [1, 2], by decide, rfl⟩
    · exact ⟨[4, 7], by simp, [2, 4], by decide, rfl⟩
    · exact ⟨[4, 3], by simp, [4, 3], by decide, rfl⟩

/-- The first pattern, with the undefined transformation in the second position. -/
def swapLate : Pattern Nat :=
  ⟨fun _ => some (some true), [(0, fun row => some (row.getD 1 0)),
    (1, fun row => if row.getD 1 0 < 5 then none else some (row.getD 1 0 - 5))]⟩

/-- **Defect.**  If a pattern fails after its first transformation, then the next pattern is applied to a partially transformed tuple
(tuple_buffer.rs:486-494): the row (4,3) is imported as (3,3), although the only pattern that is defined for it keeps it. -/
theorem partial_transformation_leaks : filterResult [swapLate, keep] [4, 3] = some [4, 3] ∧
    matchFilters 2 [swapLate, keep] [4, 3] = some ([3, 3], true) := by decide

end ImportExample

end Verif
