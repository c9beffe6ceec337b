import Verif.PropData
import Verif.TextExamples
import Verif.EngineExamples

/-!
# C51 over data values

A text with arithmetic is parsed, translated, normalized and executed over stored data values, and the answers are those that integer
arithmetic gives.
-/
set_option linter.unusedSimpArgs false
set_option linter.unusedVariables false
set_option maxRecDepth 100000

namespace Verif.Data
open Verif.Fn Verif.Tr
open Verif.Parse (Str Ex FEl VarKind AOp IOp Enc Guard RuleAst DirectiveAst KindAst StmtAst ProgramAst)

/-- **C51 for data values**: for every library of floating point, text and conversion functions and every way to store values, the
answers to a text are what it means, where functions and aggregates are those of Nemo. -/
theorem text_answers_data_partial {α : Type} [SVal α] {dict : DV → Nat} {val : α → DV} {sto : DV → α} {L : Lib}
    (h : StoresValues dict val sto) {s : Str} {p : ProgramAst} (hparse : Parse.parse s = .ok p) {items : List Item}
    (hread : readProgram L s = .ok items) {N : Names} (hN : Declared p.statements N) {arity : Str → Nat}
    (hcov : Covered N p.statements arity) (hno : ∀ s ∈ p.statements, ∀ r, s.kind = .rule r → NoExistential r) :
    letI := dataDom L h
    ∃ (Ss : List (SRule α)) (fs : List (Verif.Tag × List α)), sourceRules sto items = some Ss ∧ sourceFacts sto items = some fs ∧
      ∀ (imported : List (Str × List α)) (given : List Verif.Tag) (rules : List (NRule α))
        (cond : Nat → List (Nat × Nat) → List (List Nat)) (cfgs : List RuleCfg) (outs : List Verif.Tag) (fuel : Nat) (st : Eng α),
        (∀ x ∈ imported, x.2.length = arity x.1) → normalizeProgram given Ss = some rules → CondOK cond →
        cfgs.length = Ss.length →
        Eng.execute cond rules cfgs outs fuel (Eng.init (inputs fs imported)) = some (some st) →
        Meaning L sto N p.statements (fun n row => (n, row) ∈ imported) fun n row => st.answers (Tr.code n) row :=
  letI := dataDom L h
  text_answers_partial hparse hread hN hcov hno

namespace Example

/-- A text with arithmetic. -/
def text : Str := "p(3).\np(5).\nq(?x) :- p(?x), ?x * ?x > 10.".toList

def x : Ex := .variable .universal ['x']
def num (ds : Str) : Ex := .number ⟨false, ds, none, none, none⟩
def pAtom (e : Ex) : Guard := .expression (.atom (.plain ['p']) [e])
def qAtom (e : Ex) : Guard := .expression (.atom (.plain ['q']) [e])
def cmp : Guard := .compare .gt (.arithmetic .mul x x) (num ['1', '0'])
def rule : RuleAst := ⟨[qAtom x], [pAtom x, cmp]⟩
def ast : ProgramAst := ⟨none, [⟨none, [], .fact (pAtom (num ['3']))⟩, ⟨none, [], .fact (pAtom (num ['5']))⟩, ⟨none, [], .rule rule⟩]⟩

theorem parse_text : Parse.parse text = .ok ast := by decide +kernel

theorem read_text (L : Fn.Lib) : ∃ items, readProgram L text = .ok items := by
  rw [readProgram, parse_text]
  exact ⟨_, rfl⟩

def N : Names := ⟨none, fun _ => none⟩

theorem declared : Declared ast.statements N := by
  refine ⟨fun i => ?_, fun p i => ?_⟩ <;> simp [N, ast]

theorem of_rule {s : StmtAst} (hs : s ∈ ast.statements) {r : RuleAst} (h : s.kind = .rule r) : r = rule := by
  simp only [ast, List.mem_cons, List.not_mem_nil, or_false] at hs
  rcases hs with rfl | rfl | rfl <;> cases h <;> rfl

theorem of_fact {s : StmtAst} (hs : s ∈ ast.statements) {g : Guard} (h : s.kind = .fact g) :
    g = pAtom (num ['3']) ∨ g = pAtom (num ['5']) := by
  simp only [ast, List.mem_cons, List.not_mem_nil, or_false] at hs
  rcases hs with rfl | rfl | rfl <;> cases h <;> simp

theorem of_head {t : Parse.Tag} {es : List Ex} (h : .expression (.atom t es) ∈ rule.head) : t = .plain ['q'] ∧ es = [x] := by
  simpa only [rule, qAtom, List.mem_cons, List.not_mem_nil, or_false, Guard.expression.injEq, Ex.atom.injEq] using h

theorem of_body {t : Parse.Tag} {es : List Ex} (h : .expression (.atom t es) ∈ rule.body) : t = .plain ['p'] ∧ es = [x] := by
  simpa only [rule, pAtom, cmp, List.mem_cons, List.not_mem_nil, or_false, reduceCtorEq, Guard.expression.injEq, Ex.atom.injEq] using h

theorem no_negation {t : Parse.Tag} {es : List Ex} : .expression (.negation (.atom t es)) ∉ rule.body := by
  simp [rule, pAtom, cmp]

theorem bound_x : Tr.Bound rule ['x'] := .atom (t := .plain ['p']) (es := [x]) (e := x) (by simp [rule, pAtom]) (by simp) rfl

theorem names {g : Guard} (hg : g ∈ rule.head ∨ g ∈ rule.body) {n : Str} (hn : n ∈ guardVars g) : n = ['x'] := by
  simp only [rule, List.mem_cons, List.not_mem_nil, or_false] at hg
  rcases hg with rfl | rfl | rfl <;> simpa [qAtom, pAtom, cmp, num, guardVars, varsOf, varsOfAll, x] using hn

theorem plain : PlainRule rule := by
  constructor
  · intro g hg
    simp only [rule, List.mem_cons, List.not_mem_nil, or_false] at hg
    rcases hg with rfl | rfl <;> simp [pAtom, cmp, num, PlainGuard, PlainArg, x, PlainEx, bare]
  · intro t es hg e he
    obtain ⟨-, rfl⟩ := of_head hg
    rw [List.mem_singleton] at he
    subst he
    exact .inl (by simp [x, PlainEx])

theorem noExistential : NoExistential rule := by
  intro e he
  simp [rule, qAtom, arguments] at he
  subst he
  rfl

theorem scope : Scoped rule := Tr.Example.scoped_of (fun g hg n hn => by rw [names hg hn]; decide)
  (fun g hg n hn => by rw [names hg hn]; exact bound_x) (fun t es h => absurd h no_negation) rfl

theorem covered : Covered N ast.statements (fun _ => 1) := by
  refine ⟨fun s hs r hk => ?_, fun s hs t es hk => ?_, fun t es hu n hn => ?_⟩
  · rw [of_rule hs hk]; exact ⟨plain, scope⟩
  · rcases of_fact hs hk with h | h <;> simp only [pAtom, Guard.expression.injEq, Ex.atom.injEq] at h <;>
      obtain ⟨-, rfl⟩ := h <;> simp [num, PlainEx, varsOf]
  · cases hu with
    | fact hs hk =>
      rcases of_fact hs hk with h | h <;> simp only [pAtom, Guard.expression.injEq, Ex.atom.injEq] at h <;> simp [h]
    | head hs hk hg => rw [of_rule hs hk] at hg; rw [(of_head hg).2]; rfl
    | body hs hk hg => rw [of_rule hs hk] at hg; rw [(of_body hg).2]; rfl
    | negated hs hk hg => rw [of_rule hs hk] at hg; exact absurd hg no_negation

theorem noEx : ∀ s ∈ ast.statements, ∀ r, s.kind = .rule r → NoExistential r := fun s hs r hk => by
  rw [of_rule hs hk]; exact noExistential

theorem stratified : Stratified N ast.statements := by
  refine ⟨fun n => if n = ['q'] then 1 else 0, fun s hs r hk t es n hg hn => ?_⟩
  rw [of_rule hs hk] at hg ⊢
  obtain ⟨rfl, -⟩ := of_head hg
  cases hn
  refine ⟨fun t' es' m hg' hm => ?_, fun t' es' m hg' => absurd hg' no_negation, fun _ t' es' m hg' hm => ?_⟩ <;>
    obtain ⟨rfl, -⟩ := of_body hg' <;> cases hm <;> decide

theorem noNewValues : ∀ s ∈ ast.statements, ∀ r, s.kind = .rule r → NoNewValues r := by
  intro s hs r hk
  rw [of_rule hs hk]
  refine ⟨fun t es hg e he => ?_, fun k i ds h => ?_, fun t es hg => absurd hg no_negation, fun g hg n e ha => ?_⟩
  · obtain ⟨-, rfl⟩ := of_head hg
    rw [List.mem_singleton] at he
    subst he
    trivial
  · cases h
  · simp only [rule, List.mem_cons, List.not_mem_nil, or_false] at hg
    rcases hg with rfl | rfl <;> cases ha

section
variable {α : Type} [SVal α] {dict : DV → Nat} {val : α → DV} {sto : DV → α}

/-- The condition is true of `5` and not of `3`. -/
theorem condition (L : Lib) (hL : LibOK L) (h : StoresValues dict val sto) (ρ : Str → α) (i : Int64) (hρ : ρ ['x'] = sto (.long i)) (j : Int64)
    (hj : I64.prod [i, i] = .val j) : letI := dataDom L h; Condition L sto N ρ cmp ↔ 10 < j.toInt := by
  letI := dataDom L h
  obtain ⟨-, -, hmul, -, -⟩ := integer_arithmetic hL h i i
  obtain ⟨-, -, -, -, hgt⟩ := integer_arithmetic hL h j 10
  rw [hj] at hmul
  have hl : value L sto N ρ (.arithmetic .mul x x) = some (sto (.long j)) := by
    simp only [value, x, hρ]
    exact hmul
  have hr : value L sto N ρ (num ['1', '0']) = some (sto (.long 10)) := rfl
  refine Iff.trans ⟨?_, fun hh => ⟨_, _, hl, hr, hh⟩⟩ hgt
  rintro ⟨a, b, ha, hb, hh⟩
  rw [hl] at ha; rw [hr] at hb
  cases ha; cases hb
  exact hh

/-- **The program is executed, and the answers are what it means**: 5 · 5 > 10 and 3 · 3 ≤ 10. -/
theorem run (L : Lib) (hL : LibOK L) (h : StoresValues dict val sto) : letI := dataDom L h
    ∃ (items : List Item) (Ss : List (SRule α)) (fs : List (Verif.Tag × List α)) (rules : List (NRule α))
    (cond : Nat → List (Nat × Nat) → List (List Nat)) (fuel : Nat) (st : Eng α),
    readProgram L text = .ok items ∧ sourceRules sto items = some Ss ∧ sourceFacts sto items = some fs ∧ CondOK cond ∧
    normalizeProgram [] Ss = some rules ∧
    Eng.execute cond rules (Ss.map fun _ => default) [Tr.code ['q']] fuel (Eng.init (inputs fs [])) = some (some st) ∧
    st.answers (Tr.code ['q']) [sto (.long 5)] ∧ ¬ st.answers (Tr.code ['q']) [sto (.long 3)] := by
  letI := dataDom L h
  obtain ⟨items, hread⟩ := read_text L
  obtain ⟨Ss, fs, h1, h2, h3⟩ := text_answers_data_partial h parse_text hread declared covered noEx
  obtain ⟨Ss', fs', g1, g2, g3⟩ := text_terminates_partial (el := sto) parse_text hread declared covered noEx stratified noNewValues
  rw [h1] at g1; rw [h2] at g2
  cases g1; cases g2
  obtain ⟨cond, hcond⟩ := exists_condOK
  obtain ⟨rules, hr, -⟩ := normalizeProgram_spec [] Ss
  obtain ⟨fuel, st, hx⟩ := g3 [] [] rules cond (Ss.map fun _ => default) [Tr.code ['q']] (by simp) hr hcond (by simp)
  have hm := h3 [] [] rules cond _ _ fuel st (by simp) hr hcond (by simp) hx
  refine ⟨items, Ss, fs, rules, cond, fuel, st, hread, h1, h2, hcond, hr, hx, ?_, ?_⟩
  · refine (hm ['q'] _).2 fun I ⟨i1, _, i3⟩ => ?_
    have hp : I ['p'] [sto (.long 5)] :=
      i1 _ _ ⟨⟨none, [], .fact (pAtom (num ['5']))⟩, by simp [ast], _, _, rfl, rfl, .cons (fun _ => rfl) .nil⟩
    refine i3 ⟨none, [], .rule rule⟩ (by simp [ast]) rule rfl _ _ (.inl ⟨rfl, .plain (ρ := fun _ => sto (.long 5)) (es := [x]) ⟨?_, ?_⟩
      (List.mem_singleton.2 rfl) (fun e he => by rw [List.mem_singleton.1 he]; rfl) rfl (.cons rfl .nil)⟩)
    · intro g hg _
      simp only [rule, List.mem_cons, List.not_mem_nil, or_false] at hg
      rcases hg with rfl | rfl
      · exact ⟨_, _, rfl, hp, .cons (.inr rfl) .nil⟩
      · exact (condition L hL h _ 5 rfl 25 rfl).2 (by decide)
    · refine ⟨fun t es hg e he _ h => ?_, fun t es hg e he k i ds h => ?_, fun t es hg => absurd hg no_negation⟩ <;>
        obtain ⟨-, rfl⟩ := of_head hg <;> rw [List.mem_singleton] at he <;> subst he
      · exact (nomatch ·)
      · cases h
  · intro hq
    have key := (hm ['q'] _).1 hq (fun n row => n = ['q'] → row ≠ [sto (.long 3)]) ⟨?_, fun _ _ h => by simp at h, ?_⟩
    · exact key rfl rfl
    · rintro n row ⟨s, hs, t, es, hk, hn, hrow⟩ hq' hrow'
      rcases of_fact hs hk with h | h <;> simp only [pAtom, Guard.expression.injEq, Ex.atom.injEq] at h <;>
        obtain ⟨rfl, rfl⟩ := h <;> cases hn <;> exact absurd hq' (by decide)
    · intro s hs r hk n row hd hn hrow
      rw [of_rule hs hk] at hd
      subst hrow
      rcases hd with ⟨-, hd⟩ | ⟨hd, -⟩
      · cases hd with
        | @plain ρ t es _ _ hA hg _ _ hrow =>
          obtain ⟨-, rfl⟩ := of_head hg
          cases hrow with
          | cons e1 _ =>
            have hρ : ρ ['x'] = sto (.long 3) := Option.some.inj e1
            have := (condition L hL h ρ 3 hρ 9 rfl).1 (hA.1 cmp (by simp [rule]) fun _ n hn => by rw [names (.inr (by simp [rule])) hn]; exact bound_x)
            exact absurd this (by decide)
        | aggregate _ hg he hagg _ _ _ _ =>
          obtain ⟨-, rfl⟩ := of_head hg
          rw [List.mem_singleton] at he
          subst he
          cases hagg
      · exact hd rfl

end

/-- Some library: the assumptions on libraries can be met. -/
def someFloats {e w : Nat} (z : FinFloat e w) : FloatLib (FinFloat e w) where
  add _ _ := none
  sub _ _ := none
  mul _ _ := none
  div _ _ := none
  neg _ := none
  abs f := f
  sqrt _ := none
  sin f := f
  cos f := f
  tan f := f
  log _ _ := none
  rem a _ := a
  pow _ _ := none
  round f := f
  ceil f := f
  floor f := f
  zero := z
  one := z
  ofNat _ := none
  key f := f.scaled

def z32 : F32 := ⟨0, by decide⟩
def z64 : F64 := ⟨0, by decide⟩

def someLib : Lib where
  f32 := someFloats z32
  f64 := someFloats z64
  i64ToF64 _ := z64
  f32ToF64 _ := z64
  f64ToF32 _ := some z32
  u64ToF64 _ := z64
  u64ToF32 _ := z32
  i64ToF32 _ := z32
  parseF32 _ := none
  parseF64 _ := none
  f32ToI64 _ := none
  f64ToI64 _ := none
  graphemes s := s.toList.map String.singleton
  upper s := s
  lower s := s
  uriEncode s := s
  uriDecode s := some s
  regex _ _ := false
  levenshtein _ _ := 0
  canonical _ := ""
  lexical _ := ""
  datatype _ := some ""
  lowerTag s := s

theorem someLib_ok : LibOK someLib := ⟨fun _ _ _ _ => rfl, fun _ _ _ _ => rfl, fun _ _ _ _ => rfl, fun _ _ _ => rfl, fun _ _ _ => rfl⟩

/-- The assumptions of `run` can be met. -/
example := run someLib someLib_ok stored_storage

end Example
end Verif.Data
