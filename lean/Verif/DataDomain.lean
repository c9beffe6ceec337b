import Verif.PlanBuiltins
import Verif.Aggregates
import Verif.ChaseStep
import Verif.TextMeaning
import Mathlib.Data.Finset.Sort
import Mathlib.Data.List.Lex

/-!
# The data values and functions of Nemo as a domain for rules

The engine (C17–C25, C41, C43, C51, C53, C54) is verified for an arbitrary domain (`Dom`) of values with partial functions and
aggregates.  This file models how the operations of rules are turned into function trees
(`nemo/src/execution/planning/normalization/operation.rs`, `nemo-physical/src/function/tree.rs`) and shows that data values with
the built-in functions of `Verif.Fn` and the aggregates of `Verif.Aggregates` are such a domain.
-/
set_option linter.unusedSimpArgs false
set_option linter.unusedVariables false
set_option linter.unusedSectionVars false

namespace Verif.Data

/-- The function trees of Nemo over references `R` (tree.rs:42-88). -/
abbrev Tree (R : Type) := FTree DV Fn.UFn Fn.BFn Fn.TFn Fn.NFn R

/-- What the kinds of operations stand for in `function_tree` (operation.rs:271-351). -/
inductive OpFn where
  /-- `unary!` -/
  | un (f : Fn.UFn)
  /-- `binary!` -/
  | bin (f : Fn.BFn)
  /-- `StringSubstring` -/
  | substring
  /-- functions of any number of arguments -/
  | nary (f : Fn.NFn)
deriving DecidableEq

/-- The names of operations (operation_kind.rs:73-404, names from syntax.rs:206-340) and what `function_tree` does with
them (operation.rs:271-351). -/
def opFns : List (String × OpFn) :=
  [("EQUALITY", .bin .equals), ("UNEQUALITY", .bin .unequals), ("STRLANG", .bin .languageString),
   ("SUBTRACTION", .bin .sub), ("DIVISION", .bin .div), ("LOG", .bin .log), ("POW", .bin .pow), ("REM", .bin .rem),
   ("NUMGREATEREQ", .bin .ge), ("NUMGREATER", .bin .gt), ("NUMLESSEQ", .bin .le), ("NUMLESS", .bin .lt),
   ("COMPARE", .bin .strCompare), ("CONTAINS", .bin .strContains), ("STRBEFORE", .bin .strBefore),
   ("STRAFTER", .bin .strAfter), ("STRSTARTS", .bin .strStarts), ("STRENDS", .bin .strEnds), ("REGEX", .bin .strRegex),
   ("LEVENSHTEIN", .bin .strLevenshtein), ("BITSHL", .bin .shl), ("BITSHRU", .bin .shru), ("BITSHR", .bin .shr),
   ("SUBSTR", .substring),
   ("NOT", .un .booleanNegation), ("DOUBLE", .un .castDouble), ("FLOAT", .un .castFloat), ("INT", .un .castInt),
   ("IRI", .un .castIri), ("fullStr", .un .canonicalString), ("isInteger", .un .isInteger), ("isFloat", .un .isFloat),
   ("isDouble", .un .isDouble), ("isIri", .un .isIri), ("isNumeric", .un .isNumeric), ("isNull", .un .isNull),
   ("isString", .un .isString), ("DATATYPE", .un .datatype), ("LANG", .un .languageTag), ("ABS", .un .abs), ("COS", .un .cos),
   ("CEIL", .un .ceil), ("FLOOR", .un .floor), ("INVERTSIGN", .un .neg), ("ROUND", .un .round), ("SIN", .un .sin),
   ("SQRT", .un .sqrt), ("TAN", .un .tan), ("STRLEN", .un .strLength), ("STRREV", .un .strReverse), ("LCASE", .un .strLower),
   ("UCASE", .un .strUpper), ("URIENCODE", .un .uriEncode), ("URIDECODE", .un .uriDecode), ("STR", .un .lexicalValue),
   ("SUM", .nary .sum), ("PRODUCT", .nary .prod), ("BITAND", .nary .bitAnd), ("BITOR", .nary .bitOr), ("BITXOR", .nary .bitXor),
   ("AND", .nary .conjunction), ("OR", .nary .disjunction), ("MIN", .nary .min), ("MAX", .nary .max), ("LUKA", .nary .luka),
   ("CONCAT", .nary .concat)]

/-- The operation with a number: its position in the list of all operations (see `Verif.Tr.opCode`). -/
def opFn (k : Nat) : Option OpFn := (Parse.opTable[k]?).bind fun n => opFns.lookup (String.ofList n)

/-- The constructors of `FunctionTree` for functions of any number of parameters (tree.rs:366-396, 873-918, 956-1021, 679-685):
with one parameter, all of them except for the concatenation are this parameter.  Without parameters, conjunctions and
disjunctions are constants, and the others are trees whose stack program cannot be built (`fromTree_empty_nary`; modelled as
the absence of a tree). -/
def naryTree {R : Type} : Fn.NFn → List (Tree R) → Option (Tree R)
  | .conjunction, [] => some (.const (.bool true))
  | .disjunction, [] => some (.const (.bool false))
  | _, [] => none
  | .concat, ts => some (.nary .concat ts)
  | _, [t] => some t
  | f, ts => some (.nary f ts)

/-- `function_tree` (operation.rs:265-352) for the trees of the arguments, which are taken from the end of the list
(`pop`, operation.rs:223-248); `none` is a panic (`expect`). -/
def opTree {R : Type} (f : OpFn) (ts : List (Tree R)) : Option (Tree R) :=
  match f, ts.reverse with
  | .un g, a :: _ => some (.un g a)
  | .bin g, b :: a :: _ => some (.bin g a b)
  | .substring, l => if ts.length = 2 then
        match l with
        | b :: a :: _ => some (.bin .strSubstring a b)
        | _ => none
      else match l with
        | c :: b :: a :: _ => some (.ter .strSubstringLength a b c)
        | _ => none
  | .nary g, _ => naryTree g ts
  | _, _ => none

/-- The value of a result, if there is one. -/
def got {A : Type} : Res A → Option A
  | .val a => some a
  | _ => none

/-- Applying an operation to data values; `none` if it is undefined or fails. -/
def applyFn (L : Fn.Lib) (f : OpFn) (vs : List DV) : Option DV :=
  (opTree f (vs.map fun v => (.const v : Tree Empty))).bind fun t => got (t.sem (Fn.sem L) fun e => e.elim)

/-- `SumAggregateGroupProcessor` (/repo/nemo-physical/src/aggregates/processors/sum_aggregate.rs:27-32). -/
structure DSum where
  f32 : Option F32
  i64 : Option Int64
  f64 : Option F64

/-- `i64::checked_add` -/
def checkedAdd (a b : Int64) : Option Int64 := match I64.add a b with
  | .val c => some c
  | _ => none

/-- one of the three sums (sum_aggregate.rs:47-82): the outer `none` is a panic -/
def dsumInto {F : Type} (add : F → F → Option F) (cur : Option F) (v : F) : Option (Option F) :=
  match cur with
  | some c => (add c v).map some
  | none => some (some v)

/-- `write_aggregate_input_value` (sum_aggregate.rs:45-85); the storage type of a value is that of the data value, where
integers that fit 64 signed bits are stored as such. -/
def dsumWrite (L : Fn.Lib) (st : DSum) (v : DV) : Option DSum :=
  match Fn.Num.ofDV v with
  | some (.double v) => (dsumInto L.f64.add st.f64 v).map fun x => { st with f64 := x }
  | some (.float v) => (dsumInto L.f32.add st.f32 v).map fun x => { st with f32 := x }
  | some (.int v) => (dsumInto checkedAdd st.i64 v).map fun x => { st with i64 := x }
  | none => some st

/-- add an optional part to the overall sum (sum_aggregate.rs:94-108) -/
def dsumOpt {F : Type} (L : Fn.Lib) (conv : F → F64) (total : F64) : Option F → Option F64
  | some v => L.f64.add total (conv v)
  | none => some total

/-- `finish` (sum_aggregate.rs:87-116). -/
def dsumFinish (L : Fn.Lib) (st : DSum) : Option DV :=
  match st.f64 with
  | some total => do
    let t ← dsumOpt L L.i64ToF64 total st.i64
    let t ← dsumOpt L L.f32ToF64 t st.f32
    return .double t
  | none => (st.i64.map DV.long).or (st.f32.map DV.float)

/-- the sum of a sequence of values -/
def dsum (L : Fn.Lib) (vs : List DV) : Option DV := do
  let st ← vs.foldlM (dsumWrite L) ⟨none, none, none⟩
  dsumFinish L st

section
variable {α : Type} [SVal α] {dict : DV → Nat} {val : α → DV} {sto : DV → α}

/-- The aggregated values of a group in the order in which the aggregate operation passes them to the processor: one for every row (of
the aggregated value and the distinct values), in the order of stored rows. -/
def aggValues (rows : List (List α)) : List α := (rows.toFinset.sort (· ≤ ·)).filterMap List.head?

/-- The aggregates (/repo/nemo-physical/src/aggregates/operation.rs, aggregate.rs:115-175) by their number (`Verif.Tr.aggCode`);
`none` is the absence of a value or a panic. -/
def applyAgg (L : Fn.Lib) (val : α → DV) (sto : DV → α) (k : Nat) (rows : List (List α)) : Option α :=
  match k with
  | 0 => if (aggValues rows).length < 2 ^ 63 then some (sto (.long (Int64.ofNat (aggValues rows).length))) else none
  | 1 => minProc.run (aggValues rows)
  | 2 => maxProc.run (aggValues rows)
  | 3 => (dsum L ((aggValues rows).map val)).map sto
  | _ => none

theorem aggValues_set {rows rows' : List (List α)} (h : ∀ x, x ∈ rows ↔ x ∈ rows') : aggValues rows = aggValues rows' := by
  have : rows.toFinset = rows'.toFinset := by ext x; simp [h]
  rw [aggValues, aggValues, this]

theorem mem_aggValues {rows : List (List α)} {a : α} (h : a ∈ aggValues rows) : ∃ row ∈ rows, a ∈ row := by
  simp only [aggValues, List.mem_filterMap, Finset.mem_sort, List.mem_toFinset] at h
  obtain ⟨row, h1, h2⟩ := h
  exact ⟨row, h1, List.mem_of_mem_head? h2⟩

theorem val_sto (h : StoresValues dict val sto) (v : DV) : (val (sto v)).eq v = true :=
  (h.sto_eq _ _).1 (h.sto_val _)

/-- **Data values with the built-in functions and aggregates are a domain.** -/
@[reducible] def dataDom (L : Fn.Lib) (h : StoresValues dict val sto) : Dom α where
  tru := sto (.bool true)
  fls := sto (.bool false)
  tru_ne_fls := fun e => by have := (h.sto_eq _ _).1 e; simp [DV.eq] at this
  null n := sto (.null n)
  app k args := ((opFn k).bind fun f => applyFn L f (args.map val)).map sto
  agg k rows := applyAgg L val sto k rows
  agg_set k l l' hl := by
    have := aggValues_set hl
    unfold applyAgg
    rw [this]

end

/-- **Every operation of the language is given a function.** -/
theorem opFn_total {k : Nat} (hk : k < Parse.opTable.length) : (opFn k).isSome = true := by
  have : ∀ k < Parse.opTable.length, (opFn k).isSome = true := by decide +kernel
  exact this k hk

end Verif.Data
