import Verif.TextChase
import Verif.TextExamples
import Verif.ChaseExamples
import Verif.ChaseSourceExamples

/-!
# Examples for C51 (aggregates) and C54 (existential rules)
-/
set_option linter.unusedSimpArgs false
set_option linter.unusedVariables false
set_option maxRecDepth 100000

namespace Verif.Tr.AggExample
open Verif.Parse (Str Ex FEl VarKind AOp IOp Enc Guard RuleAst DirectiveAst KindAst StmtAst ProgramAst)

/-- A text with an aggregate. -/
def text : Str := "e(a, b).\ne(a, c).\ne(b, c).\nd(?x, #count(?y)) :- e(?x, ?y).".toList

def x : Ex := .variable .universal ['x']
def y : Ex := .variable .universal ['y']
def a : Ex := .constant (.plain ['a'])
def b : Ex := .constant (.plain ['b'])
def c : Ex := .constant (.plain ['c'])
def count : Ex := .aggregation (some "count".toList) y []
def edge (s t : Ex) : Guard := .expression (.atom (.plain ['e']) [s, t])
def degree (s t : Ex) : Guard := .expression (.atom (.plain ['d']) [s, t])
def rule : RuleAst := ⟨[degree x count], [edge x y]⟩

def ast : ProgramAst := ⟨none, [⟨none, [], .fact (edge a b)⟩, ⟨none, [], .fact (edge a c)⟩, ⟨none, [], .fact (edge b c)⟩,
  ⟨none, [], .rule rule⟩]⟩

theorem parse_text : Parse.parse text = .ok ast := by decide +kernel

theorem read_text (L : Fn.Lib) : ∃ items, readProgram L text = .ok items := by
  rw [readProgram, parse_text]
  exact ⟨_, rfl⟩

def N : Names := ⟨none, fun _ => none⟩

theorem declared : Declared ast.statements N := by
  refine ⟨fun i => ?_, fun p i => ?_⟩ <;> simp [N, ast]

theorem of_rule {s : StmtAst} (hs : s ∈ ast.statements) {r : RuleAst} (h : s.kind = .rule r) : r = rule := by
  simp only [ast, List.mem_cons, List.not_mem_nil, or_false] at hs
  rcases hs with rfl | rfl | rfl | rfl <;> cases h <;> rfl

theorem of_fact {s : StmtAst} (hs : s ∈ ast.statements) {g : Guard} (h : s.kind = .fact g) :
    g = edge a b ∨ g = edge a c ∨ g = edge b c := by
  simp only [ast, List.mem_cons, List.not_mem_nil, or_false] at hs
  rcases hs with rfl | rfl | rfl | rfl <;> cases h <;> simp

theorem of_head {t : Parse.Tag} {es : List Ex} (h : .expression (.atom t es) ∈ rule.head) : t = .plain ['d'] ∧ es = [x, count] := by
  simpa only [rule, degree, List.mem_cons, List.not_mem_nil, or_false, Guard.expression.injEq, Ex.atom.injEq] using h

theorem of_body {t : Parse.Tag} {es : List Ex} (h : .expression (.atom t es) ∈ rule.body) : t = .plain ['e'] ∧ es = [x, y] := by
  simpa only [rule, edge, List.mem_cons, List.not_mem_nil, or_false, Guard.expression.injEq, Ex.atom.injEq] using h

theorem no_negation {t : Parse.Tag} {es : List Ex} : .expression (.negation (.atom t es)) ∉ rule.body := by simp [rule, edge]

theorem bound_x : Bound rule ['x'] := .atom (t := .plain ['e']) (es := [x, y]) (e := x) (by simp [rule, edge]) (by simp) rfl
theorem bound_y : Bound rule ['y'] := .atom (t := .plain ['e']) (es := [x, y]) (e := y) (by simp [rule, edge]) (by simp) rfl

theorem names {g : Guard} (hg : g ∈ rule.head ∨ g ∈ rule.body) {n : Str} (hn : n ∈ guardVars g) : n = ['x'] ∨ n = ['y'] := by
  simp only [rule, List.mem_cons, List.not_mem_nil, or_false] at hg
  rcases hg with rfl | rfl <;> simpa [degree, edge, guardVars, varsOf, varsOfAll, x, y, count] using hn

theorem plain : PlainRule rule := by
  constructor
  · intro g hg
    simp only [rule, List.mem_cons, List.not_mem_nil, or_false] at hg
    subst hg
    simp [edge, PlainGuard, PlainArg, x, y, PlainEx, bare]
  · intro t es hg e he
    obtain ⟨-, rfl⟩ := of_head hg
    simp only [List.mem_cons, List.not_mem_nil, or_false] at he
    rcases he with rfl | rfl
    · exact .inl (by simp [x, PlainEx])
    · exact .inr (.inr ⟨_, _, _, rfl, by simp [y, PlainEx], by simp⟩)

theorem noExistential : NoExistential rule := by
  intro e he
  simp [rule, degree, arguments] at he
  rcases he with rfl | rfl <;> rfl

theorem scope : Scoped rule := by
  have hb : ∀ g, g ∈ rule.head ∨ g ∈ rule.body → ∀ n ∈ guardVars g, Bound rule n := fun g hg n hn => by
    rcases names hg hn with rfl | rfl
    · exact bound_x
    · exact bound_y
  refine ⟨fun g hg n hn => ?_, fun g hg _ => .inl fun n h => hb g (.inr hg) n h, fun t es hg e he _ n h => ?_, fun g hg n h => hb g (.inl hg) n h, ?_,
    fun t es hg => absurd hg no_negation, by decide, fun _ => noExistential⟩
  · rcases names hg hn with rfl | rfl <;> decide
  · exact hb _ (.inr (hg.resolve_right no_negation)) n (Tr.Example.varsOf_arg he h)
  · refine List.pairwise_of_forall_mem_list fun g hg g' _ _ _ n h _ => hb g (.inr hg) n h

theorem covered : Covered N ast.statements (fun _ => 2) := by
  refine ⟨fun s hs r hk => ?_, fun s hs t es hk => ?_, fun t es hu n hn => ?_⟩
  · rw [of_rule hs hk]; exact ⟨plain, scope⟩
  · rcases of_fact hs hk with h | h | h <;> simp only [edge, Guard.expression.injEq, Ex.atom.injEq] at h <;>
      obtain ⟨-, rfl⟩ := h <;> simp [a, b, c, PlainEx, varsOf]
  · cases hu with
    | fact hs hk =>
      rcases of_fact hs hk with h | h | h <;> simp only [edge, Guard.expression.injEq, Ex.atom.injEq] at h <;> simp [h]
    | head hs hk hg => rw [of_rule hs hk] at hg; rw [(of_head hg).2]; rfl
    | body hs hk hg => rw [of_rule hs hk] at hg; rw [(of_body hg).2]; rfl
    | negated hs hk hg => rw [of_rule hs hk] at hg; exact absurd hg no_negation

theorem noEx : ∀ s ∈ ast.statements, ∀ r, s.kind = .rule r → NoExistential r := fun s hs r hk => by
  rw [of_rule hs hk]; exact noExistential

theorem stratified : Stratified N ast.statements := by
  refine ⟨fun n => if n = ['d'] then 1 else 0, fun s hs r hk t es n hg hn => ?_⟩
  rw [of_rule hs hk] at hg ⊢
  obtain ⟨rfl, -⟩ := of_head hg
  cases hn
  refine ⟨fun t' es' m hg' hm => ?_, fun t' es' m hg' => absurd hg' no_negation, fun _ t' es' m hg' hm => ?_⟩ <;>
    obtain ⟨rfl, -⟩ := of_body hg' <;> cases hm <;> decide

theorem noNewValues : ∀ s ∈ ast.statements, ∀ r, s.kind = .rule r → NoNewValues r := by
  intro s hs r hk
  rw [of_rule hs hk]
  refine ⟨fun t es hg e he => ?_, fun k i ds h => ?_, fun t es hg => absurd hg no_negation, fun g hg n e ha => ?_⟩
  · obtain ⟨-, rfl⟩ := of_head hg
    simp only [List.mem_cons, List.not_mem_nil, or_false] at he
    rcases he with rfl | rfl <;> trivial
  · have : (k, i, ds) ∈ [("count".toList, y, ([] : List Ex))] := h
    rw [List.mem_singleton] at this
    cases this
    trivial
  · simp only [rule, List.mem_cons, List.not_mem_nil, or_false] at hg
    subst hg; cases ha

/-- Values: numbers or nulls -/
abbrev D := Nat ⊕ Nat

/-- The values of constants: the code of the first letter of names. -/
def el : DV → D
  | .iri s => .inl (s.toList.headD 'z').toNat
  | _ => .inl 0

def A : D := .inl 97
def B : D := .inl 98
def C : D := .inl 99

/-- **The program is executed, and the answers are what it means**: there are two edges from `a`. -/
theorem run (L : Fn.Lib) : ∃ (items : List Item) (Ss : List (SRule D)) (fs : List (Verif.Tag × List D)) (rules : List (NRule D))
    (cond : Nat → List (Nat × Nat) → List (List Nat)) (fuel : Nat) (st : Eng D),
    readProgram L text = .ok items ∧ sourceRules el items = some Ss ∧ sourceFacts el items = some fs ∧ CondOK cond ∧
    normalizeProgram [] Ss = some rules ∧
    Eng.execute cond rules (Ss.map fun _ => default) [code ['d']] fuel (Eng.init (inputs fs [])) = some (some st) ∧
    Meaning L el N ast.statements (fun _ _ => False) (fun n row => st.answers (code n) row) ∧
    st.answers (code ['d']) [A, .inl 2] := by
  obtain ⟨items, hread⟩ := read_text L
  obtain ⟨Ss, fs, h1, h2, h3⟩ := text_answers_partial (el := el) parse_text hread declared covered noEx
  obtain ⟨Ss', fs', g1, g2, g3⟩ := text_terminates_partial (el := el) parse_text hread declared covered noEx stratified noNewValues
  rw [h1] at g1; rw [h2] at g2
  cases g1; cases g2
  obtain ⟨cond, hcond⟩ := exists_condOK
  obtain ⟨rules, hr, -⟩ := normalizeProgram_spec [] Ss
  obtain ⟨fuel, st, hx⟩ := g3 [] [] rules cond (Ss.map fun _ => default) [code ['d']] (by simp) hr hcond (by simp)
  have hm := h3 [] [] rules cond _ _ fuel st (by simp) hr hcond (by simp) hx
  have hm' : Meaning L el N ast.statements (fun _ _ => False) (fun n row => st.answers (code n) row) := by
    simpa using hm
  refine ⟨items, Ss, fs, rules, cond, fuel, st, hread, h1, h2, hcond, hr, hx, hm', ?_⟩
  have he : ∀ row, st.answers (code ['e']) row ↔ row = [A, B] ∨ row = [A, C] ∨ row = [B, C] := by
    intro row
    refine ⟨fun h => ?_, fun h => (hm' ['e'] row).2 fun I ⟨i1, _, _⟩ => ?_⟩
    · have := (hm' ['e'] row).1 h (fun n row => n = ['e'] → row = [A, B] ∨ row = [A, C] ∨ row = [B, C]) ⟨?_, fun _ _ h => h.elim, ?_⟩
      · exact this rfl
      · rintro n row ⟨s, hs, t, es, hk, hn, hrow⟩ -
        have hv : ∀ (p q : DV), List.Forall₂ (fun e b => ∀ ρ, value L el N ρ e = some b) es row →
            (∀ ρ, es.map (value L el N ρ) = [some (el p), some (el q)]) → row = [el p, el q] := by
          intro p q h1 h2
          have h2 := h2 fun _ => el p
          match es, row, h1 with
          | [], _, _ => cases h2
          | [_], _, _ => simp at h2
          | [e, f], [r, r'], .cons k1 (.cons k2 .nil) =>
            simp only [List.map_cons, List.map_nil, List.cons.injEq, and_true, k1, k2, Option.some.injEq] at h2
            rw [h2.1, h2.2]
          | _ :: _ :: _ :: _, _, _ => simp at h2
        rcases of_fact hs hk with h | h | h <;> simp only [edge, Guard.expression.injEq, Ex.atom.injEq] at h <;> obtain ⟨-, rfl⟩ := h
        · exact .inl (hv (.iri "a") (.iri "b") hrow fun ρ => rfl)
        · exact .inr (.inl (hv (.iri "a") (.iri "c") hrow fun ρ => rfl))
        · exact .inr (.inr (hv (.iri "b") (.iri "c") hrow fun ρ => rfl))
      · intro s hs r hk n row hd hn
        subst hn
        rw [of_rule hs hk] at hd
        exfalso
        have hd : ∃ A, DerivedBy L el N rule A ['e'] row := hd.elim (fun h => ⟨_, h.2⟩) fun h => ⟨_, h.2⟩
        obtain ⟨_, hd⟩ := hd
        cases hd with
        | plain _ hg _ hn _ => obtain ⟨rfl, -⟩ := of_head hg; cases hn
        | aggregate _ hg _ _ _ _ hn _ => obtain ⟨rfl, -⟩ := of_head hg; cases hn
    · rcases h with rfl | rfl | rfl
      · exact i1 _ _ ⟨⟨none, [], .fact (edge a b)⟩, by simp [ast], _, _, rfl, rfl, .cons (fun _ => rfl) (.cons (fun _ => rfl) .nil)⟩
      · exact i1 _ _ ⟨⟨none, [], .fact (edge a c)⟩, by simp [ast], _, _, rfl, rfl, .cons (fun _ => rfl) (.cons (fun _ => rfl) .nil)⟩
      · exact i1 _ _ ⟨⟨none, [], .fact (edge b c)⟩, by simp [ast], _, _, rfl, rfl, .cons (fun _ => rfl) (.cons (fun _ => rfl) .nil)⟩
  have hdef : ∀ ρ : Str → D, Defined L el N ρ rule := by
    refine fun ρ => ⟨fun t es hg e he _ h => ?_, fun t es hg e he k i ds h => ?_, fun t es hg => absurd hg no_negation⟩ <;>
      obtain ⟨-, rfl⟩ := of_head hg <;> simp only [List.mem_cons, List.not_mem_nil, or_false] at he <;> rcases he with rfl | rfl
    · exact (nomatch ·)
    · cases h
    · cases h
    · cases h; exact (nomatch ·)
  have happ : ∀ ρ : Str → D, Applicable L el N rule (fun n row => st.answers (code n) row) (fun n row => st.answers (code n) row) ρ ↔
      st.answers (code ['e']) [ρ ['x'], ρ ['y']] := by
    intro ρ
    constructor
    · rintro ⟨h, -⟩
      obtain ⟨n, row, hn, hm, hf⟩ := h (edge x y) (by simp [rule]) (fun h => h.elim)
      cases hn
      cases hf with
      | cons f1 hf =>
        cases hf with
        | cons f2 hf =>
          cases hf
          rcases f1 with f1 | f1 <;> cases f1
          rcases f2 with f2 | f2 <;> cases f2
          exact hm
    · intro h
      refine ⟨fun g hg _ => ?_, hdef ρ⟩
      simp only [rule, List.mem_cons, List.not_mem_nil, or_false] at hg
      subst hg
      exact ⟨_, _, rfl, h, .cons (.inr rfl) (.cons (.inr rfl) .nil)⟩
  refine (hm' ['d'] _).2 fun I ⟨i1, _, i3⟩ => ?_
  refine i3 ⟨none, [], .rule rule⟩ (by simp [ast]) rule rfl _ _ (.inr ⟨by decide, .aggregate
    (ρ := fun v => if v = ['x'] then A else B) (l := [[B], [C]]) (x := .inl 2)
      ((happ _).2 ((he _).2 (.inl rfl))) (List.mem_singleton.2 rfl) (List.mem_cons_of_mem _ (List.mem_singleton.2 rfl)) rfl
      (fun z => ?_) (by decide) rfl (.cons rfl (.cons rfl .nil))⟩)
  constructor
  · intro hz
    simp only [List.mem_cons, List.not_mem_nil, or_false] at hz
    rcases hz with rfl | rfl
    · exact ⟨fun v => if v = ['x'] then A else B, (happ _).2 ((he _).2 (.inl rfl)), fun _ _ _ => rfl, rfl⟩
    · refine ⟨fun v => if v = ['x'] then A else C, (happ _).2 ((he _).2 (.inr (.inl rfl))), fun e' he' h => ?_, rfl⟩
      simp only [List.mem_cons, List.not_mem_nil, or_false] at he'
      rcases he' with rfl | rfl
      · rfl
      · cases h
  · rintro ⟨ρ', hA, hg, hv⟩
    have hx : ρ' ['x'] = A := Option.some.inj (hg x (by simp) rfl)
    have := (he _).1 ((happ ρ').1 hA)
    have hz : z = [ρ' ['y']] := (Option.some.inj hv).symm
    rw [hx] at this
    rw [hz]
    simp only [List.cons.injEq, and_true, true_and] at this
    rcases this with h | h | h
    · simp [h]
    · simp [h]
    · exact absurd h.1 (by decide)

end Verif.Tr.AggExample

namespace Verif.Tr.ChaseExample
open Verif.Parse (Str Ex FEl VarKind AOp IOp Enc Guard RuleAst DirectiveAst KindAst StmtAst ProgramAst)
open AggExample (x y a b N el D A B)

/-- A text with an existential rule. -/
def text : Str := "p(a).\np(b).\nr(?x, !z) :- p(?x).\nq(?x) :- r(?x, ?y).".toList

def z : Ex := .variable .existential ['z']
def pAtom (s : Ex) : Guard := .expression (.atom (.plain ['p']) [s])
def qAtom (s : Ex) : Guard := .expression (.atom (.plain ['q']) [s])
def rAtom (s t : Ex) : Guard := .expression (.atom (.plain ['r']) [s, t])
def rule1 : RuleAst := ⟨[rAtom x z], [pAtom x]⟩
def rule2 : RuleAst := ⟨[qAtom x], [rAtom x y]⟩

def ast : ProgramAst := ⟨none, [⟨none, [], .fact (pAtom a)⟩, ⟨none, [], .fact (pAtom b)⟩, ⟨none, [], .rule rule1⟩,
  ⟨none, [], .rule rule2⟩]⟩

theorem parse_text : Parse.parse text = .ok ast := by decide +kernel

theorem declared : Declared ast.statements N := by
  refine ⟨fun i => ?_, fun p i => ?_⟩ <;> simp [N, ast]

theorem of_rule {s : StmtAst} (hs : s ∈ ast.statements) {r : RuleAst} (h : s.kind = .rule r) : r = rule1 ∨ r = rule2 := by
  simp only [ast, List.mem_cons, List.not_mem_nil, or_false] at hs
  rcases hs with rfl | rfl | rfl | rfl <;> cases h <;> simp

theorem of_fact {s : StmtAst} (hs : s ∈ ast.statements) {g : Guard} (h : s.kind = .fact g) : g = pAtom a ∨ g = pAtom b := by
  simp only [ast, List.mem_cons, List.not_mem_nil, or_false] at hs
  rcases hs with rfl | rfl | rfl | rfl <;> cases h <;> simp

theorem plain1 : PlainRule rule1 := by
  constructor
  · intro g hg
    simp only [rule1, List.mem_cons, List.not_mem_nil, or_false] at hg
    subst hg
    simp [pAtom, PlainGuard, PlainArg, x, PlainEx, bare]
  · intro t es hg e he
    simp only [rule1, rAtom, List.mem_cons, List.not_mem_nil, or_false, Guard.expression.injEq, Ex.atom.injEq] at hg
    obtain ⟨-, rfl⟩ := hg
    simp only [List.mem_cons, List.not_mem_nil, or_false] at he
    rcases he with rfl | rfl
    · exact .inl (by simp [x, PlainEx])
    · exact .inr (.inl ⟨_, rfl⟩)

theorem plain2 : PlainRule rule2 := by
  constructor
  · intro g hg
    simp only [rule2, List.mem_cons, List.not_mem_nil, or_false] at hg
    subst hg
    simp [rAtom, PlainGuard, PlainArg, x, y, PlainEx, bare]
  · intro t es hg e he
    simp only [rule2, qAtom, List.mem_cons, List.not_mem_nil, or_false, Guard.expression.injEq, Ex.atom.injEq] at hg
    obtain ⟨-, rfl⟩ := hg
    simp only [List.mem_cons, List.not_mem_nil, or_false] at he
    subst he
    exact .inl (by simp [x, PlainEx])

theorem bound1 : Bound rule1 ['x'] := .atom (t := .plain ['p']) (es := [x]) (e := x) (by simp [rule1, pAtom]) (by simp) rfl
theorem bound2x : Bound rule2 ['x'] := .atom (t := .plain ['r']) (es := [x, y]) (e := x) (by simp [rule2, rAtom]) (by simp) rfl
theorem bound2y : Bound rule2 ['y'] := .atom (t := .plain ['r']) (es := [x, y]) (e := y) (by simp [rule2, rAtom]) (by simp) rfl

theorem names1 : ∀ g, g ∈ rule1.head ∨ g ∈ rule1.body → ∀ n ∈ guardVars g, n = ['x'] := by
  intro g hg n hn
  simp only [rule1, List.mem_cons, List.not_mem_nil, or_false] at hg
  rcases hg with rfl | rfl <;> simpa [rAtom, pAtom, guardVars, varsOf, varsOfAll, x, z] using hn

theorem names2 : ∀ g, g ∈ rule2.head ∨ g ∈ rule2.body → ∀ n ∈ guardVars g, n = ['x'] ∨ n = ['y'] := by
  intro g hg n hn
  simp only [rule2, List.mem_cons, List.not_mem_nil, or_false] at hg
  rcases hg with rfl | rfl <;> simp [rAtom, qAtom, guardVars, varsOf, varsOfAll, x, y] at hn <;> tauto

theorem scoped1 : Scoped rule1 := Tr.Example.scoped_of (fun g hg n hn => by rw [names1 g hg n hn]; decide)
  (fun g hg n hn => by rw [names1 g hg n hn]; exact bound1) (fun t es h => by simp [rule1, pAtom] at h) rfl

theorem scoped2 : Scoped rule2 := Tr.Example.scoped_of (fun g hg n hn => by rcases names2 g hg n hn with rfl | rfl <;> decide)
  (fun g hg n hn => by
    rcases names2 g hg n hn with rfl | rfl
    · exact bound2x
    · exact bound2y) (fun t es h => by simp [rule2, rAtom] at h) rfl

theorem uses {t : Parse.Tag} {es : List Ex} (h : Uses ast.statements t es) :
    (t = .plain ['p'] ∧ es.length = 1) ∨ (t = .plain ['q'] ∧ es.length = 1) ∨ (t = .plain ['r'] ∧ es.length = 2) := by
  cases h with
  | fact hs hk => rcases of_fact hs hk with h | h <;> (simp only [pAtom, Guard.expression.injEq, Ex.atom.injEq] at h; simp [h])
  | head hs hk hg =>
    rcases of_rule hs hk with rfl | rfl <;>
      (simp only [rule1, rule2, qAtom, rAtom, List.mem_cons, List.not_mem_nil, or_false, Guard.expression.injEq,
        Ex.atom.injEq] at hg; simp [hg])
  | body hs hk hg =>
    rcases of_rule hs hk with rfl | rfl <;>
      (simp only [rule1, rule2, pAtom, rAtom, List.mem_cons, List.not_mem_nil, or_false, Guard.expression.injEq,
        Ex.atom.injEq] at hg; simp [hg])
  | negated hs hk hg => rcases of_rule hs hk with rfl | rfl <;> simp [rule1, rule2, pAtom, rAtom] at hg

def arity (n : Str) : Nat := if n = ['r'] then 2 else 1

theorem covered : Covered N ast.statements arity := by
  refine ⟨fun s hs r hk => ?_, fun s hs t es hk => ?_, fun t es hu n hn => ?_⟩
  · rcases of_rule hs hk with rfl | rfl
    · exact ⟨plain1, scoped1⟩
    · exact ⟨plain2, scoped2⟩
  · rcases of_fact hs hk with h | h <;> simp only [pAtom, Guard.expression.injEq, Ex.atom.injEq] at h <;>
      obtain ⟨-, rfl⟩ := h <;> simp [a, b, PlainEx, varsOf]
  · rcases uses hu with ⟨rfl, h⟩ | ⟨rfl, h⟩ | ⟨rfl, h⟩ <;> rw [h] <;> cases hn <;> decide

theorem plainExistential : ∀ s ∈ ast.statements, ∀ r, s.kind = .rule r → ¬ NoExistential r → PlainExistential r := by
  intro s hs r hk hno
  rcases of_rule hs hk with rfl | rfl
  · intro e he
    simp [rule1, rAtom, arguments] at he
    rcases he with rfl | rfl
    · exact .inr (.inr ⟨['x'], rfl, .plain ['p'], [x], by simp [rule1, pAtom], x, by simp, rfl⟩)
    · exact .inl ⟨_, rfl⟩
  · refine absurd (fun e he => ?_) hno
    simp [rule2, qAtom, arguments] at he
    subst he; rfl

theorem noHelpers : NoHelpers N ast.statements := by
  intro t es hu n hn i h
  have hl : n.length = 1 := by
    rcases uses hu with ⟨rfl, -⟩ | ⟨rfl, -⟩ | ⟨rfl, -⟩ <;> cases hn <;> rfl
  rw [h, satisfiedName, String.toList_append] at hl
  simp at hl

theorem el_null : ∀ v n, el v ≠ Dom.null n := by
  intro v n h
  cases v <;> cases h

theorem stable_var (L : Fn.Lib) (n : Str) : NullStable L el N (.variable .universal n) := by
  intro h _ ρ w hv
  cases hv
  rfl

theorem positive (L : Fn.Lib) : ∀ s ∈ ast.statements, ∀ r, s.kind = .rule r → PositiveRule L el N r := by
  intro s hs r hk
  rcases of_rule hs hk with rfl | rfl
  · refine ⟨fun g hg h => ?_, rfl, fun g hg h => ?_, fun t es hg e he => ?_, fun t es hg e he h => ?_⟩
    · simp only [rule1, List.mem_cons, List.not_mem_nil, or_false] at hg; subst hg; exact h
    · simp only [rule1, List.mem_cons, List.not_mem_nil, or_false] at hg; subst hg; exact h.elim
    · simp only [rule1, pAtom, List.mem_cons, List.not_mem_nil, or_false, Guard.expression.injEq, Ex.atom.injEq] at hg
      obtain ⟨-, rfl⟩ := hg
      simp only [List.mem_cons, List.not_mem_nil, or_false] at he
      subst he; exact .inr (stable_var L _)
    · simp only [rule1, rAtom, List.mem_cons, List.not_mem_nil, or_false, Guard.expression.injEq, Ex.atom.injEq] at hg
      obtain ⟨-, rfl⟩ := hg
      simp only [List.mem_cons, List.not_mem_nil, or_false] at he
      rcases he with rfl | rfl
      · exact stable_var L _
      · cases h
  · refine ⟨fun g hg h => ?_, rfl, fun g hg h => ?_, fun t es hg e he => ?_, fun t es hg e he h => ?_⟩
    · simp only [rule2, List.mem_cons, List.not_mem_nil, or_false] at hg; subst hg; exact h
    · simp only [rule2, List.mem_cons, List.not_mem_nil, or_false] at hg; subst hg; exact h.elim
    · simp only [rule2, rAtom, List.mem_cons, List.not_mem_nil, or_false, Guard.expression.injEq, Ex.atom.injEq] at hg
      obtain ⟨-, rfl⟩ := hg
      simp only [List.mem_cons, List.not_mem_nil, or_false] at he
      rcases he with rfl | rfl <;> exact .inr (stable_var L _)
    · simp only [rule2, qAtom, List.mem_cons, List.not_mem_nil, or_false, Guard.expression.injEq, Ex.atom.injEq] at hg
      obtain ⟨-, rfl⟩ := hg
      simp only [List.mem_cons, List.not_mem_nil, or_false] at he
      subst he; exact stable_var L _

/-! ### The run -/

def S1 : SRule D := ⟨[⟨code ['p'], [.var (uvar ['x'])]⟩], [], [], [⟨code ['r'], [.var (uvar ['x']), .var (evar ['z'])]⟩]⟩
def S2 : SRule D := ⟨[⟨code ['r'], [.var (uvar ['x']), .var (uvar ['y'])]⟩], [], [], [⟨code ['q'], [.var (uvar ['x'])]⟩]⟩
def rows : List (Verif.Tag × List D) := [(code ['p'], [A]), (code ['p'], [B])]

theorem read_text (L : Fn.Lib) : ∃ items, readProgram L text = .ok items ∧ sourceRules el items = some [S1, S2] ∧
    sourceFacts el items = some rows := by
  rw [readProgram, parse_text]
  exact ⟨_, rfl, rfl, rfl⟩

abbrev X : Variable := uvar ['x']
abbrev Y : Variable := uvar ['y']
abbrev Z : Variable := evar ['z']
abbrev P : Verif.Tag := code ['p']
abbrev R : Verif.Tag := code ['r']
abbrev Qp : Verif.Tag := code ['q']
/-- the name of the rule that is used to find the column orders of existential rules -/
abbrev aux : Verif.Tag := code "_HEAD".toList

theorem prog_norm {rules : List (NRule D)} {cfgs : List RuleCfg} (h : normalizeProgram [P] [S1, S2] = some rules)
    (hc : ruleCfgs [P] [P] aux satCode rules = some cfgs) :
    ∃ o1 o2 o3, rules = [normalizeRule S1 o1, normalizeRule S2 o2] ∧
      cfgs = [⟨satCode 0, o3, false⟩, ⟨satCode 1, [], false⟩] ∧ (o1 = [X, Z] ∨ o1 = [Z, X]) ∧ (o2 = [X, Y] ∨ o2 = [Y, X]) ∧
      (o3 = [X, Z] ∨ o3 = [Z, X]) := by
  obtain ⟨rules', h1, h2, h3⟩ := VarOrder.setOrders_spec [P] ([S1, S2].map fun S => normalizeRule S [])
  have h' : VarOrder.setOrders [P] ([S1, S2].map fun S => normalizeRule S []) = some rules := h
  rw [h'] at h1; cases h1
  obtain ⟨o1, a1, a2, a3⟩ := h3 0 (normalizeRule S1 []) rfl
  obtain ⟨o2, b1, b2, b3⟩ := h3 1 (normalizeRule S2 []) rfl
  have hr : rules = [normalizeRule S1 o1, normalizeRule S2 o2] := by
    match rules, h2 with
    | [r1, r2], _ =>
      simp only [List.getElem?_cons_zero, Option.some.injEq, List.getElem?_cons_succ] at a1 b1
      rw [a1, b1]; rfl
  obtain ⟨cfgs', c1, c2, c3⟩ := ruleCfgs_spec [P] [P] aux satCode rules
  rw [hc] at c1; cases c1
  rw [hr] at c2 c3
  match cfgs, c2 with
  | [g1, g2], _ =>
    obtain ⟨d1, d2, d3, -⟩ := c3 0 _ g1 rfl rfl
    obtain ⟨e1, e2, -, e4⟩ := c3 1 _ g2 rfl rfl
    have hx : (normalizeRule S1 o1).isExistential = true := by
      have : (normalizeRule S1 o1).isExistential = (normalizeRule S1 []).isExistential := rfl
      rw [this]; decide +kernel
    have hx' : (normalizeRule S2 o2).isExistential = false := by
      have : (normalizeRule S2 o2).isExistential = (normalizeRule S2 []).isExistential := rfl
      rw [this]; decide +kernel
    have xv : X ≠ Z := fun h => by cases h
    have xy : X ≠ Y := by decide +kernel
    have v1 : (normalizeRule S1 []).vars = [X, Z, X] := by decide +kernel
    have v2 : (normalizeRule S2 []).vars = [X, X, Y] := by decide +kernel
    have v3 : (normalizeRule S1 o1).head.flatMap (·.vars) = [X, Z] := by
      have : (normalizeRule S1 o1).head = (normalizeRule S1 []).head := rfl
      rw [this]; decide +kernel
    refine ⟨o1, o2, g1.exOrder, hr, ?_, ChaseSourceExample.two_orders xv a2 fun w => ?_, ChaseSourceExample.two_orders xy b2 fun w => ?_,
      ChaseSourceExample.two_orders xv (d3 hx).1 fun w => ?_⟩
    · have f1 : g1.hasFacts = false := by
        rw [d2]
        have : (normalizeRule S1 o1).predsHead = (normalizeRule S1 []).predsHead := rfl
        rw [this]; decide +kernel
      have f2 : g2.hasFacts = false := by
        rw [e2]
        have : (normalizeRule S2 o2).predsHead = (normalizeRule S2 []).predsHead := rfl
        rw [this]; decide +kernel
      cases g1; cases g2
      simp only at d1 e1 f1 f2 e4
      rw [d1, e1, f1, f2, e4 hx']
    · rw [a3, v1]; simp; tauto
    · rw [b3, v2]; simp
    · rw [(d3 hx).2, v3]; simp

/-- What the engine derives. -/
theorem prog_run {rules : List (NRule D)} {cfgs : List RuleCfg} (h : normalizeProgram [P] [S1, S2] = some rules)
    (hc : ruleCfgs [P] [P] aux satCode rules = some cfgs) :
    ∃ st, Eng.execute (Verif.ChaseExample.condFor 2 [(0, 1)] [[0], [1]]) rules cfgs [R] 20 (Eng.init (inputs rows [])) = some (some st) ∧
      st.predicateRows R = [[A, .inr 0], [B, .inr 1]] ∧ st.predicateRows Qp = [[A], [B]] := by
  obtain ⟨o1, o2, o3, rfl, rfl, p1, p2, p3⟩ := prog_norm h hc
  clear h hc
  have key : ∀ rs : List (NRule D), ∀ cs : List RuleCfg, rs.length = 2 →
      stratify (negationGraph rs) (Verif.ChaseExample.condFor 2 [(0, 1)] [[0], [1]] rs.length
        ((negationGraph rs).map fun e => (e.1, e.2.1))) = some [[0, 1]] →
      Verif.ChaseExample.condFor 2 [(0, 1)] [[0], [1]] 2 (positiveGraph ([0, 1].filterMap fun i => rs[i]?)) = [[0], [1]] →
      ((execLoop defaultNext rs cs 20 (newStratified (rs.map (·.isRecursive)) [([0, 1], [[0], [1]])]) none
      ([R].foldl Eng.combinePredicate (Eng.init (inputs rows [])))).map fun s => (s.predicateRows R, s.predicateRows Qp)) =
      some ([[A, .inr 0], [B, .inr 1]], [[A], [B]]) →
      ∃ st, Eng.execute (Verif.ChaseExample.condFor 2 [(0, 1)] [[0], [1]]) rs cs [R] 20 (Eng.init (inputs rows [])) = some (some st) ∧
      st.predicateRows R = [[A, .inr 0], [B, .inr 1]] ∧ st.predicateRows Qp = [[A], [B]] := by
    intro rs cs hl h1 h3 h
    have hs : newStrategy (Verif.ChaseExample.condFor 2 [(0, 1)] [[0], [1]]) rs = some [([0, 1], [[0], [1]])] := by
      have h2 : [0, 1].mergeSort (fun a b => decide (a ≤ b)) = [0, 1] := List.mergeSort_of_pairwise (by decide)
      unfold newStrategy
      simp only [h1, Option.bind_eq_bind, Option.bind_some, List.map_cons, List.map_nil, h2]
      exact congrArg (fun x => some [([0, 1], x)]) h3
    simp only [Option.map_eq_some_iff, Prod.mk.injEq] at h
    obtain ⟨st, h1, h2, h3⟩ := h
    refine ⟨st, ?_, h2, h3⟩
    unfold Eng.execute
    rw [hs, Option.map_some, h1]
  rcases p1 with rfl | rfl <;> rcases p2 with rfl | rfl <;> rcases p3 with rfl | rfl <;>
    exact key _ _ rfl (by decide +kernel) (by decide +kernel) (by decide +kernel)

/-- **The assumptions of the theorems are met**: the answers satisfy the text, `q(a)` is a certain answer, and in every collection of
facts that satisfies the text there is a value `w` with `r(a, w)`. -/
theorem certain (L : Fn.Lib) : (∃ st : Eng D, Model L el N ast.statements (fun _ _ => False) (fun n row => st.answers (code n) row) ∧
      st.answers (code ['r']) [A, .inr 0]) ∧
    (∀ M, Model L el N ast.statements (fun _ _ => False) M → M ['q'] [A] ∧ ∃ w, M ['r'] [A, w]) ∧
    ∃ M, Model L el N ast.statements (fun _ _ => False) M ∧ ¬ M ['q'] [.inl 7] := by
  obtain ⟨items, hread, g1, g2⟩ := read_text L
  obtain ⟨rules, h, -⟩ := normalizeProgram_spec [P] [S1, S2]
  obtain ⟨cfgs, hc, -⟩ := ruleCfgs_spec [P] [P] aux satCode rules
  obtain ⟨st, r1, r2, r3⟩ := prog_run h hc
  have hcond := Verif.ChaseExample.condFor_ok Verif.ChaseExample.chain_topo
  obtain ⟨Ss, fs, k1, k2, hmod⟩ := text_model_partial (el := el) parse_text hread declared covered el_null plainExistential noHelpers
  rw [g1] at k1; rw [g2] at k2; cases k1; cases k2
  obtain ⟨Ss, fs, k1, k2, huni⟩ := text_universal_partial (el := el) parse_text hread declared covered el_null plainExistential noHelpers (positive L)
  rw [g1] at k1; rw [g2] at k2; cases k1; cases k2
  obtain ⟨Ss, fs, k1, k2, hcert⟩ := text_certain_partial (el := el) parse_text hread declared covered el_null plainExistential noHelpers (positive L)
  rw [g1] at k1; rw [g2] at k2; cases k1; cases k2
  have hname : ∀ (n : Str), n.length = 1 → ∀ i, n ≠ satisfiedName i := by
    intro n hn i h
    rw [h, satisfiedName, String.toList_append] at hn
    simp at hn
  have hM := hmod [] _ _ _ rules _ cfgs _ _ st (by simp) h hcond hc r1
  have hU := huni [] _ _ _ rules _ cfgs _ _ st (by simp) h hc r1
  have hC := hcert [] _ _ _ rules _ cfgs _ _ st (by simp) h hcond hc r1 ['q'] (hname _ rfl)
  simp only [List.not_mem_nil] at hM hU hC
  refine ⟨⟨st, hM, ?_⟩, fun M hM => ⟨?_, ?_⟩, ?_⟩
  · show _ ∈ st.predicateRows R
    rw [r2]; simp
  · refine (hC [A] (by intro a ha n hn; rw [List.mem_singleton.1 ha] at hn; cases hn)).1 ?_ M hM
    rw [show st.predicateRows (code ['q']) = _ from r3]; simp
  · obtain ⟨f, f1, f2⟩ := hU M hM
    have := f2 ['r'] (hname _ rfl) [A, .inr 0] (by rw [show st.predicateRows (code ['r']) = _ from r2]; simp)
    simp only [List.map_cons, List.map_nil] at this
    rw [f1 A (fun n hn => by cases hn)] at this
    exact ⟨_, this⟩
  · by_contra hno
    push Not at hno
    have := (hC [.inl 7] (by intro a ha n hn; rw [List.mem_singleton.1 ha] at hn; cases hn)).2 hno
    rw [show st.predicateRows (code ['q']) = _ from r3] at this
    simp [A, B] at this

end Verif.Tr.ChaseExample

namespace Verif.Tr.LocalExample
open Verif.Parse (Str Ex FEl VarKind AOp IOp Enc Guard RuleAst DirectiveAst KindAst StmtAst ProgramAst)
open AggExample (x y a b N el D A B)

/-- A text with a condition on a local variable of a negated atom: all edges from `?x` lead to `b`. -/
def text : Str := "e(a, b).\ne(b, a).\ns(?x) :- e(?x, _), ~e(?x, ?y), ?y != b.".toList

def edge (s t : Ex) : Guard := .expression (.atom (.plain ['e']) [s, t])
def noEdge (s t : Ex) : Guard := .expression (.negation (.atom (.plain ['e']) [s, t]))
def head : Guard := .expression (.atom (.plain ['s']) [x])
def cond : Guard := .compare .ne y b
def rule : RuleAst := ⟨[head], [edge x .anonymous, noEdge x y, cond]⟩
def ast : ProgramAst := ⟨none, [⟨none, [], .fact (edge a b)⟩, ⟨none, [], .fact (edge b a)⟩, ⟨none, [], .rule rule⟩]⟩

theorem parse_text : Parse.parse text = .ok ast := by decide +kernel

theorem read_text (L : Fn.Lib) : ∃ items, readProgram L text = .ok items := by
  rw [readProgram, parse_text]
  exact ⟨_, rfl⟩

theorem declared : Declared ast.statements N := by
  refine ⟨fun i => ?_, fun p i => ?_⟩ <;> simp [N, ast]

theorem of_rule {s : StmtAst} (hs : s ∈ ast.statements) {r : RuleAst} (h : s.kind = .rule r) : r = rule := by
  simp only [ast, List.mem_cons, List.not_mem_nil, or_false] at hs
  rcases hs with rfl | rfl | rfl <;> cases h <;> rfl

theorem of_fact {s : StmtAst} (hs : s ∈ ast.statements) {g : Guard} (h : s.kind = .fact g) : g = edge a b ∨ g = edge b a := by
  simp only [ast, List.mem_cons, List.not_mem_nil, or_false] at hs
  rcases hs with rfl | rfl | rfl <;> cases h <;> simp

theorem of_head {t : Parse.Tag} {es : List Ex} (h : .expression (.atom t es) ∈ rule.head) : t = .plain ['s'] ∧ es = [x] := by
  simpa only [rule, head, List.mem_cons, List.not_mem_nil, or_false, Guard.expression.injEq, Ex.atom.injEq] using h

theorem of_body {t : Parse.Tag} {es : List Ex} (h : .expression (.atom t es) ∈ rule.body) : t = .plain ['e'] ∧ es = [x, .anonymous] := by
  simpa only [rule, edge, noEdge, cond, List.mem_cons, List.not_mem_nil, or_false, Guard.expression.injEq, Ex.atom.injEq, reduceCtorEq]
    using h

theorem of_neg {t : Parse.Tag} {es : List Ex} (h : .expression (.negation (.atom t es)) ∈ rule.body) : t = .plain ['e'] ∧ es = [x, y] := by
  simpa only [rule, edge, noEdge, cond, List.mem_cons, List.not_mem_nil, or_false, false_or, Guard.expression.injEq, Ex.negation.injEq,
    Ex.atom.injEq, reduceCtorEq] using h

theorem bound_x : Bound rule ['x'] := .atom (t := .plain ['e']) (es := [x, .anonymous]) (e := x) (by simp [rule, edge]) (by simp) rfl

/-- `?y` is local in the negated atom. -/
theorem not_bound_y : ¬ Bound rule ['y'] := by
  have : ∀ n, Bound rule n → n ≠ ['y'] := by
    intro n h
    induction h with
    | atom h1 h2 h3 =>
      obtain ⟨-, rfl⟩ := of_body h1
      simp only [List.mem_cons, List.not_mem_nil, or_false] at h2
      rcases h2 with rfl | rfl
      · cases h3; decide
      · cases h3
    | assign h1 h2 _ _ =>
      simp only [rule, List.mem_cons, List.not_mem_nil, or_false] at h1
      rcases h1 with rfl | rfl | rfl <;> cases h2
  exact fun h => this _ h rfl

theorem plain : PlainRule rule := by
  constructor
  · intro g hg
    simp only [rule, List.mem_cons, List.not_mem_nil, or_false] at hg
    rcases hg with rfl | rfl | rfl <;> simp [edge, noEdge, cond, PlainGuard, PlainArg, x, y, b, PlainEx, bare]
  · intro t es hg e he
    obtain ⟨-, rfl⟩ := of_head hg
    simp only [List.mem_cons, List.not_mem_nil, or_false] at he
    subst he
    exact .inl (by simp [x, PlainEx])

theorem scope : Scoped rule := by
  refine ⟨fun g hg n hn => ?_, fun g hg hc => ?_, fun t es hg e he hu n hn => ?_, fun g hg n hn => ?_, ?_, fun t es hg => ?_, by decide,
    fun h => absurd rfl h⟩
  · have : n = ['x'] ∨ n = ['y'] := by
      simp only [rule, List.mem_cons, List.not_mem_nil, or_false] at hg
      rcases hg with rfl | rfl | rfl | rfl <;> simp [head, edge, noEdge, cond, guardVars, varsOf, varsOfAll, x, y, b] at hn <;> tauto
    rcases this with rfl | rfl <;> decide
  · simp only [rule, List.mem_cons, List.not_mem_nil, or_false] at hg
    rcases hg with rfl | rfl | rfl
    · exact hc.elim
    · exact hc.elim
    · refine .inr ⟨.plain ['e'], [x, y], by simp [rule, noEdge], fun n hn => ⟨y, by simp, ?_⟩⟩
      have : n = ['y'] := by simpa [cond, guardVars, varsOf, y, b] using hn
      rw [this]; rfl
  · exfalso
    rcases hg with hg | hg
    · obtain ⟨-, rfl⟩ := of_body hg
      simp only [List.mem_cons, List.not_mem_nil, or_false] at he
      rcases he with rfl | rfl
      · cases hu
      · simp [varsOf] at hn
    · obtain ⟨-, rfl⟩ := of_neg hg
      simp only [List.mem_cons, List.not_mem_nil, or_false] at he
      rcases he with rfl | rfl <;> cases hu
  · simp only [rule, List.mem_cons, List.not_mem_nil, or_false] at hg
    subst hg
    have : n = ['x'] := by simpa [head, guardVars, varsOf, varsOfAll, x] using hn
    rw [this]; exact bound_x
  · simp [rule, List.pairwise_cons, edge, noEdge, cond, IsNegated]
  · obtain ⟨-, rfl⟩ := of_neg hg
    refine ⟨x, by simp, by simp [x, bare], fun n hn => ?_⟩
    have : n = ['x'] := by simpa [varsOf, x] using hn
    rw [this]; exact bound_x

theorem covered : Covered N ast.statements (fun n => if n = ['e'] then 2 else 1) := by
  refine ⟨fun s hs r hk => ?_, fun s hs t es hk => ?_, fun t es hu n hn => ?_⟩
  · rw [of_rule hs hk]; exact ⟨plain, scope⟩
  · rcases of_fact hs hk with h | h <;> simp only [edge, Guard.expression.injEq, Ex.atom.injEq] at h <;>
      obtain ⟨-, rfl⟩ := h <;> simp [a, b, PlainEx, varsOf]
  · cases hu with
    | fact hs hk =>
      rcases of_fact hs hk with h | h <;> simp only [edge, Guard.expression.injEq, Ex.atom.injEq] at h <;> obtain ⟨rfl, rfl⟩ := h <;>
        cases hn <;> rfl
    | head hs hk hg => rw [of_rule hs hk] at hg; obtain ⟨rfl, rfl⟩ := of_head hg; cases hn; rfl
    | body hs hk hg => rw [of_rule hs hk] at hg; obtain ⟨rfl, rfl⟩ := of_body hg; cases hn; rfl
    | negated hs hk hg => rw [of_rule hs hk] at hg; obtain ⟨rfl, rfl⟩ := of_neg hg; cases hn; rfl

theorem noEx : ∀ s ∈ ast.statements, ∀ r, s.kind = .rule r → NoExistential r := fun s hs r hk => by
  rw [of_rule hs hk]
  intro e he
  simp [rule, head, arguments] at he
  subst he; rfl

/-- **The rule means what is written**: it derives `s(a)`, since the only edge from `a` leads to `b`, in all domains where no value is
different from itself. -/
theorem derives {α : Type} [DecidableEq α] [Dom α] (L : Fn.Lib) (el : DV → α) {A B : α} (hA : el (.iri "a") = A) (hB : el (.iri "b") = B)
    (hAB : A ≠ B) (hne : ∀ u : α, Dom.app (opCode "UNEQUALITY".toList) [u, u] ≠ some Dom.tru) : Derived L el N rule
    (fun n row => n = ['e'] ∧ (row = [A, B] ∨ row = [B, A])) (fun n row => n = ['e'] ∧ (row = [A, B] ∨ row = [B, A])) ['s'] [A] := by
  refine .inl ⟨rfl, .plain (ρ := fun _ => A) ⟨fun g hg hb => ?_, ?_⟩ (List.mem_singleton.2 rfl) (fun e he => ?_) rfl (.cons rfl .nil)⟩
  · simp only [rule, List.mem_cons, List.not_mem_nil, or_false] at hg
    rcases hg with rfl | rfl | rfl
    · exact ⟨_, _, rfl, ⟨rfl, .inl rfl⟩, .cons (.inr rfl) (.cons (.inl rfl) .nil)⟩
    · refine ⟨_, rfl, ?_⟩
      rintro ⟨ρ', row, h1, ⟨-, h2⟩, h3, h4⟩
      have hx : ρ' ['x'] = A := h1 _ bound_x
      obtain ⟨u, w, hu, hw, ho⟩ := h4 cond (by simp [rule]) trivial ⟨['y'], by simp [varsOfAll, varsOf, x, y], by simp [cond, guardVars, varsOf, y],
        not_bound_y⟩
      have huw : u = w → False := by
        rintro rfl
        exact hne u ho
      cases hu
      cases hw
      cases h3 with
      | cons f1 h3 =>
        cases h3 with
        | cons f2 h3 =>
          cases h3
          rcases f1 with f1 | f1 <;> cases f1
          rcases f2 with f2 | f2 <;> cases f2
          rw [hx] at h2
          simp only [List.cons.injEq, and_true] at h2
          rcases h2 with h2 | h2
          · exact huw (h2.2.trans hB.symm)
          · exact absurd h2.1 hAB
    · exact absurd (hb trivial ['y'] (by simp [cond, guardVars, varsOf, y])) not_bound_y
  · refine ⟨fun t es hg e he _ h => ?_, fun t es hg e he k i ds h => ?_, fun t es hg e he => ?_⟩
    · obtain ⟨-, rfl⟩ := of_head hg
      simp only [List.mem_cons, List.not_mem_nil, or_false] at he
      subst he; exact (nomatch ·)
    · obtain ⟨-, rfl⟩ := of_head hg
      simp only [List.mem_cons, List.not_mem_nil, or_false] at he
      subst he; cases h
    · obtain ⟨-, rfl⟩ := of_neg hg
      simp only [List.mem_cons, List.not_mem_nil, or_false] at he
      rcases he with rfl | rfl <;> exact .inr (nomatch ·)
  · simp only [List.mem_cons, List.not_mem_nil, or_false] at he
    subst he; rfl

end Verif.Tr.LocalExample
