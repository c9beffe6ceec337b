import Verif.PropJson

/-!
# Examples for C64
-/

set_option maxRecDepth 100000

namespace Verif.Js.Examples
open Verif.Js

/-- `{"a": [true, 5], "type": "x"}` -/
def doc : Json Unit := .object [("a", .array [.bool true, .int 5]), ("type", .string "x")]

/-- Its table: the last member is visited first, and new ids are given when a value is visited. -/
theorem doc_table : readJson doc = some [
    (.int 0, .iriType, .str "object"), (.int 0, .str "a", .int 1), (.int 0, .str "type", .int 2),
    (.int 2, .iriType, .str "string"), (.int 2, .iriValue, .str "x"),
    (.int 1, .iriType, .str "array"), (.int 1, .int 0, .int 3), (.int 1, .int 1, .int 4),
    (.int 4, .iriType, .str "number"), (.int 4, .iriValue, .int 5),
    (.int 3, .iriType, .str "bool"), (.int 3, .iriValue, .bool true)] := by decide +kernel

/-- The path `a`, `1` leads to the number 5. -/
theorem doc_at : At doc [.member "a", .position 1] (.int 5) :=
  .member (e := .array [.bool true, .int 5]) (by simp) (.element (e := .int 5) rfl (.here _))

theorem doc_path {T : List (Row Unit)} (h : readJson doc = some T) : ∃ k, Chain T 0 [.member "a", .position 1] k ∧ (idCell k, .iriType, .str "number") ∈ T := by
  obtain ⟨k, h1, h2, -⟩ := (json_paths h _).1 _ doc_at
  exact ⟨k, h1, h2⟩

/-- No other path through `a` has a third element. -/
example {T : List (Row Unit)} (h : readJson doc = some T) (k : Nat) : ¬ Chain T 0 [.member "a", .position 2] k := by
  intro hc
  obtain ⟨j', h1, -⟩ := (json_paths h _).2 k hc
  rcases h1 with _ | _ | ⟨h2, h3⟩
  simp at h2
  obtain ⟨-, rfl⟩ := h2
  cases h3 with
  | element h4 _ => simp at h4

/-- The member `type` is not confused with the type of the value: one is a string, the other an IRI. -/
example : ((.int 0, .str "type", .int 2) : Row Unit) ≠ (.int 0, .iriType, .int 2) := by decide

/-- The empty array, the empty object, `null` and the string "null" have different tables. -/
example : readJson (.array [] : Json Unit) = some [(.int 0, .iriType, .str "array")] ∧ readJson (.object [] : Json Unit) = some [(.int 0, .iriType, .str "object")] ∧
    readJson (.null : Json Unit) = some [(.int 0, .iriType, .str "null")] ∧
    readJson (.string "null" : Json Unit) = some [(.int 0, .iriType, .str "string"), (.int 0, .iriValue, .str "null")] := ⟨rfl, rfl, rfl, rfl⟩

/-- Equal values at different places have different ids, so that `[[], []]` is not `[[]]`. -/
theorem doc_ids {T T' : List (Row Unit)} (h : readJson (.array [.array [], .array []]) = some T) (h' : readJson (.array [.array []]) = some T') : ¬ ∀ r, r ∈ T ↔ r ∈ T' := by
  intro hT
  have := json_lossless h h' hT
  simp at this

end Verif.Js.Examples
