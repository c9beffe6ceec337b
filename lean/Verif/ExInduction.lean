import Verif.ParseAst

/-!
# Induction over expressions
-/
namespace Verif.Parse

/-- The direct parts of an expression. -/
inductive Part : Ex → Ex → Prop
  | aggregated {k e ds} : Part e (.aggregation k e ds)
  | distinct {k e ds d} : d ∈ ds → Part d (.aggregation k e ds)
  | left {o l r} : Part l (.arithmetic o l r)
  | right {o l r} : Part r (.arithmetic o l r)
  | atom {t es e} : e ∈ es → Part e (.atom t es)
  | piece {fs e} : .expr e ∈ fs → Part e (.formatString fs)
  | key {t kvs k v} : (k, v) ∈ kvs → Part k (.map t kvs)
  | value {t kvs k v} : (k, v) ∈ kvs → Part v (.map t kvs)
  | negation {e} : Part e (.negation e)
  | operation {k es e} : e ∈ es → Part e (.operation k es)
  | parenthesized {e} : Part e (.parenthesized e)
  | tuple {es e} : e ∈ es → Part e (.tuple es)

theorem Part.size {a e : Ex} (h : Part a e) : sizeOf a < sizeOf e := by
  cases h with
  | aggregated => simp; omega
  | distinct h => have := List.sizeOf_lt_of_mem h; simp; omega
  | left => simp; omega
  | right => simp; omega
  | atom h => have := List.sizeOf_lt_of_mem h; simp; omega
  | piece h => have := List.sizeOf_lt_of_mem h; simp at this ⊢; omega
  | key h => have := List.sizeOf_lt_of_mem h; simp at this ⊢; omega
  | value h => have := List.sizeOf_lt_of_mem h; simp at this ⊢; omega
  | negation => simp
  | operation h => have := List.sizeOf_lt_of_mem h; simp; omega
  | parenthesized => simp
  | tuple h => have := List.sizeOf_lt_of_mem h; simp; omega

/-- What holds of an expression if it holds of its direct parts, holds of all expressions. -/
theorem Ex.parts {P : Ex → Prop} (h : ∀ e, (∀ a, Part a e → P a) → P e) (e : Ex) : P e :=
  h e fun a _ => Ex.parts h a
termination_by sizeOf e
decreasing_by exact Part.size ‹_›

end Verif.Parse
