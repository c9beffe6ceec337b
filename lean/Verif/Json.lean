import Mathlib.Data.List.Basic

/-!
# Importing JSON

Model of `JsonReader::provide_table_data` (/repo/nemo/src/io/formats/json/reader.rs:61-172).

Simplified: parsing is left out (serde_json), so that a document is a tree; members of objects are a list in the order of the map.  Numbers are
integers or doubles of any type `δ` (`as_i64`, `as_u64`, otherwise `as_f64`, reader.rs:108-118); integers are not bounded.
-/

namespace Verif.Js

/-- `serde_json::Value` -/
inductive Json (δ : Type) where
  | null
  | bool (b : Bool)
  | int (n : Int)
  | double (d : δ)
  | string (s : String)
  | array (elements : List (Json δ))
  | object (members : List (String × Json δ))

/-- The data values that are written: integers (also for ids and positions), doubles, booleans, plain strings, and the two IRIs `type` and `value` -/
inductive Cell (δ : Type) where
  | int (n : Int)
  | double (d : δ)
  | bool (b : Bool)
  | str (s : String)
  | iriType
  | iriValue
deriving DecidableEq, Repr

/-- A row of the table -/
abbrev Row (δ : Type) := Cell δ × Cell δ × Cell δ

variable {δ : Type}

/-- The cell of an id (reader.rs:75) -/
def idCell (i : Nat) : Cell δ := .int (i : Int)

/-- The loop over the elements of an array (reader.rs:141-149): rows, new maximal id, and the elements with their ids -/
def arrayLoop (id : Nat) : Nat → Nat → List (Json δ) → List (Row δ) × List (Nat × Json δ) × Nat
  | _, max, [] => ([], [], max)
  | i, max, e :: es =>
    let r := arrayLoop id (i + 1) (max + 1) es
    ((idCell id, .int (i : Int), idCell (max + 1)) :: r.1, (max + 1, e) :: r.2.1, r.2.2)

/-- The loop over the members of an object (reader.rs:158-166) -/
def objectLoop (id : Nat) : Nat → List (String × Json δ) → List (Row δ) × List (Nat × Json δ) × Nat
  | max, [] => ([], [], max)
  | max, m :: ms =>
    let r := objectLoop id (max + 1) ms
    ((idCell id, .str m.1, idCell (max + 1)) :: r.1, (max + 1, m.2) :: r.2.1, r.2.2)

/-- One pass of the outer loop for a value (reader.rs:77-168): its rows, what is pushed on the stack (in this order), and the new maximal id -/
def visit (max id : Nat) : Json δ → List (Row δ) × List (Nat × Json δ) × Nat
  | .null => ([(idCell id, .iriType, .str "null")], [], max)
  | .bool b => ([(idCell id, .iriType, .str "bool"), (idCell id, .iriValue, .bool b)], [], max)
  | .int n => ([(idCell id, .iriType, .str "number"), (idCell id, .iriValue, .int n)], [], max)
  | .double d => ([(idCell id, .iriType, .str "number"), (idCell id, .iriValue, .double d)], [], max)
  | .string s => ([(idCell id, .iriType, .str "string"), (idCell id, .iriValue, .str s)], [], max)
  | .array es => let r := arrayLoop id 0 max es; ((idCell id, .iriType, .str "array") :: r.1, r.2)
  | .object ms => let r := objectLoop id max ms; ((idCell id, .iriType, .str "object") :: r.1, r.2)

/-- The outer loop (reader.rs:74-169) with at most `n` passes; the head of the list is the top of the stack. -/
def readLoop : Nat → Nat → List (Nat × Json δ) → Option (List (Row δ))
  | _, _, [] => some []
  | 0, _, _ :: _ => none
  | n + 1, max, (id, j) :: stack =>
    let r := visit max id j
    (readLoop n r.2.2 (r.2.1.reverse ++ stack)).map (r.1 ++ ·)

mutual
/-- The number of values in a document -/
def Json.size : Json δ → Nat
  | .array es => sizes es + 1
  | .object ms => memberSizes ms + 1
  | _ => 1
def sizes : List (Json δ) → Nat
  | [] => 0
  | e :: es => e.size + sizes es
def memberSizes : List (String × Json δ) → Nat
  | [] => 0
  | (_, e) :: ms => e.size + memberSizes ms
end

/-- `provide_table_data` (reader.rs:61-172): the rows of a document.  The number of passes is only a bound. -/
def readJson (j : Json δ) : Option (List (Row δ)) := readLoop j.size 0 [(0, j)]

end Verif.Js
