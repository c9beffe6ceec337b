/-
The dictionary of data values: encodings of the individual kinds of values, the tuple
dictionary, and the meta dictionary that maps the local ids of its sub-dictionaries to global
ids in blocks.

Modelled code (`nemo-physical/src/dictionary/`): `meta_dv_dict.rs:19-578`, `tuple_dv_dict.rs`,
`null_dv_dict.rs`, `string_dv_dict.rs:28-84`, `string_langstring_dv_dict.rs`,
`ranked_pair_iri_dv_dict.rs`, `ranked_pair_other_dv_dict.rs`.  The string and pair dictionaries
are abstract dictionaries (`kFind`, `kAdd`), which the models of the byte and pair dictionaries
refine (`BDict.dictionaries_refine`, `PairDict.Rep`); `usize` has 64 bits.  A panic is `none`.
-/
import Verif.RankedPair
import Verif.DataValue

set_option linter.unusedSimpArgs false
set_option linter.unusedVariables false

namespace Verif

/-! ### Encodings of strings -/

/-- `IriDvPairConverter::dict_pair`, ranked_pair_iri_dv_dict.rs:17-27, 32-44: split after the last
`/` or `#` (both are single bytes that occur in no other UTF-8 sequence). -/
def splitIri (s : String) : String × String :=
  let rare := (s.toList.reverse.takeWhile fun c => c ≠ '/' && c ≠ '#').reverse
  (String.ofList (s.toList.take (s.toList.length - rare.length)), String.ofList rare)

/-- The length of a string in bytes (`str::len`). -/
def byteLen (cs : List Char) : Nat := (cs.map Char.utf8Size).sum

/-- `to_ascii_lowercase` (lang_string_datavalue.rs:25, 101). -/
def asciiLower (s : String) : String := String.ofList (s.toList.map Char.toLower)

/-- string_dv_dict.rs:48 -/
def escapeTag (cs : List Char) : List Char :=
  (cs.flatMap fun c => if c = '\\' then ['\\', '\\'] else [c]).flatMap fun c => if c = '>' then ['\\', 'a'] else [c]

/-- `two_strings_to_one`, string_dv_dict.rs:29-53. -/
def twoToOne (s t : String) : Option String :=
  if t.toList = [] then none
  else if byteLen t.toList ≤ 127 then
    some (String.ofList (Char.ofNat (byteLen t.toList) :: t.toList ++ s.toList))
  else some (String.ofList (Char.ofNat 0 :: escapeTag t.toList ++ '>' :: s.toList))

/-- Splitting a string at a byte position that must be a character boundary (`str::get`). -/
def splitBytes : Nat → List Char → Option (List Char × List Char)
  | 0, cs => some ([], cs)
  | _ + 1, [] => none
  | n + 1, c :: cs =>
    if c.utf8Size ≤ n + 1 then (splitBytes (n + 1 - c.utf8Size) cs).map fun x => (c :: x.1, x.2) else none

/-- `one_string_to_two`, string_dv_dict.rs:57-84.  If the first character has several bytes, its
first byte is a positive marker, and position 1 is not a character boundary. -/
def oneToTwo (k : String) : Option (String × String) :=
  match k.toList with
  | [] => none
  | c :: cs =>
    if 128 ≤ c.toNat then none
    else if 0 < c.toNat then (splitBytes c.toNat cs).map fun x => (String.ofList x.2, String.ofList x.1)
    else
      match cs.dropWhile (· ≠ '>') with
      | [] => none
      | _ :: rest => some (String.ofList rest, String.ofList (cs.takeWhile (· ≠ '>')))

/-- `ValueDomain::Boolean.type_iri()`, datavalue.rs:124. -/
def xsdBoolean : String := "http://www.w3.org/2001/XMLSchema#boolean"

/-- `ValueDomain::UnsignedLong.type_iri()`, datavalue.rs:109. -/
def xsdUnsignedLong : String := "http://www.w3.org/2001/XMLSchema#unsignedLong"

/-- `OtherDvPairConverter::pair_to_datavalue`, ranked_pair_other_dv_dict.rs:30-39. -/
def otherValue (datatype lexical : String) : DV :=
  if datatype = xsdBoolean then .bool (lexical == "true") else .other lexical datatype

/-! ### Big-endian bytes -/

/-- `to_be_bytes` of an integer with `n` bytes. -/
def be : Nat → Nat → Bytes
  | 0, _ => []
  | n + 1, x => be n (x / 256) ++ [UInt8.ofNat x]

/-- `from_be_bytes`. -/
def fromBe (bs : Bytes) : Nat := bs.foldl (fun acc b => acc * 256 + b.toNat) 0

/-- `push_usize_id_to_bytes`, tuple_dv_dict.rs:175-197: the type byte and the bytes of the id. -/
def usizeBytes (id : Nat) (t32 t64 : UInt8) : Option (UInt8 × Bytes) :=
  if id < 2 ^ 32 then some (t32, be 4 id)
  else if id < 2 ^ 64 then some (t64, be 8 id)
  else none

/-! ### The meta dictionary -/

/-- `MetaDvDictionary`, meta_dv_dict.rs:158-187, with its six sub-dictionaries in the order in
which `default` creates them (192-216): IRIs, strings, language-tagged strings, other values,
nulls, tuples.  `gblocks` and `dictblocks` contain `none` for `usize::MAX`. -/
structure MDict where
  iris : List (String × String)
  strs : List String
  langs : List String
  others : List (String × String)
  nulls : Nat
  tups : List (Bytes × Bytes)
  gblocks : List (List (Option Nat))
  dictblocks : List (Option (Nat × Nat))
deriving DecidableEq

namespace MDict

/-- `Default::default`, meta_dv_dict.rs:192-216. -/
def new : MDict := ⟨[], [], [], [], 0, [], List.replicate 6 [], []⟩

/-- The number of values in a sub-dictionary. -/
def size (m : MDict) : Nat → Nat
  | 0 => m.iris.length
  | 1 => m.strs.length
  | 2 => m.langs.length
  | 3 => m.others.length
  | 4 => m.nulls
  | 5 => m.tups.length
  | _ => 0

/-- the global block of a local block -/
def gblock (m : MDict) (d lb : Nat) : Option Nat := do
  let gs ← m.gblocks[d]?
  let g ← gs[lb]?
  g

/-- `local_to_global_unchecked`, meta_dv_dict.rs:242-248. -/
def localToGlobal (m : MDict) (d l : Nat) : Option Nat :=
  (m.gblock d (l >>> 24)).map fun g => (g <<< 24) + l % 2 ^ 24

/-- `global_to_local`, meta_dv_dict.rs:264-272. -/
def globalToLocal (m : MDict) (id : Nat) : Option (Nat × Nat) :=
  match m.dictblocks[id >>> 24]? with
  | some (some (d, lb)) => some (d, (lb <<< 24) + id % 2 ^ 24)
  | _ => none

/-- the list of blocks, extended to length at least `n` (`resize`, meta_dv_dict.rs:280, 301) -/
def padTo {α : Type} (n : Nat) (l : List (Option α)) : List (Option α) := l ++ List.replicate (n - l.length) none

/-- the block where the search for a free one starts (meta_dv_dict.rs:284-295) -/
def startBlock (gs : List (Option Nat)) : Nat → Nat
  | 0 => 0
  | i + 1 => match (gs[i]?).join with
    | some g => g + (i + 1) - 1
    | none => startBlock gs i

/-- the first free block from a given one on (meta_dv_dict.rs:297-299) -/
def freeBlock (blocks : List (Option (Nat × Nat))) (start : Nat) : Nat :=
  start + ((blocks.drop start).takeWhile Option.isSome).length

/-- `allocate_block`, meta_dv_dict.rs:277-310. -/
def allocate (m : MDict) (d lb : Nat) : Option (Nat × MDict) := do
  let gs ← m.gblocks[d]?
  match ((padTo (lb + 1) gs)[lb]?).join with
  | some g => return (g, { m with gblocks := m.gblocks.set d (padTo (lb + 1) gs) })
  | none =>
    let nb := freeBlock m.dictblocks (startBlock (padTo (lb + 1) gs) (lb + 1))
    return (nb, { m with
      gblocks := m.gblocks.set d ((padTo (lb + 1) gs).set lb (some nb))
      dictblocks := (padTo (nb + 1) m.dictblocks).set nb (some (d, lb)) })

/-- `local_to_global`, meta_dv_dict.rs:254-260. -/
def assign (m : MDict) (d l : Nat) : Option (Nat × MDict) := do
  let r ← m.allocate d (l >>> 24)
  return ((r.1 <<< 24) + l % 2 ^ 24, r.2)

/-- The key of a value in the dictionary of language-tagged strings
(string_langstring_dv_dict.rs:17-24). -/
def langKey (s t : String) : Option String := twoToOne s (asciiLower t)

/-- The local lookup of a value that is not a tuple, with the number of its sub-dictionary:
`DictIterator::next` (meta_dv_dict.rs:118-131) and the `datavalue_to_id` functions
(string_dv_dict.rs:150-156, ranked_pair_dv_dict.rs:68-72, null_dv_dict.rs:57-68).  The outer option
is a panic; the inner one is `none` for values without sub-dictionary. -/
def locate (m : MDict) (v : DV) : Option (Option (Nat × Option Nat)) :=
  match v with
  | .iri s => some (some (0, kFind m.iris (splitIri s)))
  | .str s => some (some (1, kFind m.strs s))
  | .lang s t => (langKey s t).map fun k => some (2, kFind m.langs k)
  | .other l d => some (some (3, kFind m.others (d, l)))
  | .bool b => some (some (3, kFind m.others (xsdBoolean, if b then "true" else "false")))
  | .ulong n =>
    if v.domain = .unsignedLong then some (some (3, kFind m.others (xsdUnsignedLong, toString n.toNat)))
    else some none
  | .null i => some (some (4, if i < m.nulls then some i else none))
  | _ => some none

/-- the answer of `datavalue_to_id` (meta_dv_dict.rs:497-512) for a located value -/
def locatedId (m : MDict) : Option (Nat × Option Nat) → Option (Option Nat)
  | some (d, some l) => (m.localToGlobal d l).map some
  | _ => some none

/-- the index up to which type bytes are kept (tuple_dv_dict.rs:224, 278-282) -/
def lastChange (len : Nat) (prev : UInt8) (last : Nat) : List UInt8 → Nat
  | [] => last
  | t :: ts => if t ≠ prev then lastChange (len + 1) t (len + 1) ts else lastChange (len + 1) prev last ts

/-- the two byte sequences of a tuple (tuple_dv_dict.rs:276-288): label bytes, then for each
element its type byte and its content -/
def tupleKey (label : Bytes) (es : List (UInt8 × Bytes)) : Bytes × Bytes :=
  ((label ++ es.map Prod.fst).take (lastChange label.length 0 0 (es.map Prod.fst)), (es.map Prod.snd).flatten)

/-- the bytes of a label id (tuple_dv_dict.rs:211-219) -/
def labelBytes (id : Nat) : Option Bytes := (usizeBytes id 10 11).map fun x => x.1 :: x.2

/-- elements of tuples that are not stored in the dictionary: type byte and content
(tuple_dv_dict.rs:245-274) -/
def plainElem (v : DV) : Option (UInt8 × Bytes) :=
  match v with
  | .float f => some (7, be 4 f.bits.toNat)
  | .double f => some (8, be 8 f.bits.toNat)
  | .long i => some (5, be 8 i.toUInt64.toNat)
  | .ulong n => if v.domain = .unsignedLong then some (6, be 8 n.toNat) else some (5, be 8 n.toNat)
  | .bool b => some (9, [if b then 1 else 0])
  | .null i => usizeBytes i 4 3
  | _ => none

/-- is the element stored by its dictionary id? (tuple_dv_dict.rs:229-235) -/
def isDictElem : DV → Bool
  | .str _ | .lang _ _ | .iri _ | .other _ _ | .tuple _ _ | .map _ _ => true
  | _ => false

/-- the bytes of an optional label, if it is known (tuple_dv_dict.rs:306-315) -/
def labelKey (m : MDict) : Option String → Option (Option Bytes)
  | none => some (some [])
  | some s => do
    match ← m.locatedId (some (0, kFind m.iris (splitIri s))) with
    | none => return none
    | some id => (labelBytes id).map some

mutual
/-- `datavalue_to_id`, meta_dv_dict.rs:497-512, with `tuple_bytes` and
`tuple_datavalue_to_id_with_parent`, tuple_dv_dict.rs:301-433. -/
def toId (m : MDict) : DV → Option (Option Nat)
  | .tuple label vs => do
    match ← m.labelKey label with
    | none => return none
    | some lb =>
      match ← elemKeys m vs with
      | none => return none
      | some es => m.locatedId (some (5, kFind m.tups (tupleKey lb es)))
  | v => do
    let x ← m.locate v
    m.locatedId x
/-- The loop over the elements of a tuple in `tuple_bytes`, tuple_dv_dict.rs:321-383. -/
def elemKeys (m : MDict) : List DV → Option (Option (List (UInt8 × Bytes)))
  | [] => some (some [])
  | v :: vs => do
    if isDictElem v then
      match ← toId m v with
      | none => return none
      | some id =>
        let e ← usizeBytes id 2 1
        match ← elemKeys m vs with
        | none => return none
        | some es => return some (e :: es)
    else
      let e ← plainElem v
      match ← elemKeys m vs with
      | none => return none
      | some es => return some (e :: es)
end

/-- Adding a located value that is not a tuple to its sub-dictionary: `add_datavalue` of the
sub-dictionaries (string_dv_dict.rs:134-140, ranked_pair_dv_dict.rs:51-58, null_dv_dict.rs:35-46). -/
def addLocal (m : MDict) (v : DV) : Option (AddResult × MDict) :=
  match v with
  | .iri s => some ((kAdd m.iris (splitIri s)).1, { m with iris := (kAdd m.iris (splitIri s)).2 })
  | .str s => some ((kAdd m.strs s).1, { m with strs := (kAdd m.strs s).2 })
  | .lang s t => (langKey s t).map fun k => ((kAdd m.langs k).1, { m with langs := (kAdd m.langs k).2 })
  | .other l d => some ((kAdd m.others (d, l)).1, { m with others := (kAdd m.others (d, l)).2 })
  | .bool b => some ((kAdd m.others (xsdBoolean, if b then "true" else "false")).1,
      { m with others := (kAdd m.others (xsdBoolean, if b then "true" else "false")).2 })
  | .ulong n => some ((kAdd m.others (xsdUnsignedLong, toString n.toNat)).1,
      { m with others := (kAdd m.others (xsdUnsignedLong, toString n.toNat)).2 })
  | .null i => some (if i < m.nulls then .known i else .rejected, m)
  | _ => some (.rejected, m)

/-- the end of `add_datavalue_inline` (meta_dv_dict.rs:471-478) -/
def finish (d : Nat) (r : AddResult) (m : MDict) : Option (AddResult × MDict) :=
  match r with
  | .rejected => some (.rejected, m)
  | r => do
    let g ← m.assign d r.value
    return (.fresh g.1, g.2)

/-- `add_datavalue_inline`, meta_dv_dict.rs:382-479, for values that are not tuples. -/
def addSimple (m : MDict) (v : DV) : Option (AddResult × MDict) := do
  match ← m.locate v with
  | none => return (.rejected, m)
  | some (d, some l) => do
    let g ← m.localToGlobal d l
    return (.known g, m)
  | some (d, none) => do
    let r ← m.addLocal v
    finish d r.1 r.2

/-- adding an optional label (tuple_dv_dict.rs:211-219) -/
def addLabel (m : MDict) : Option String → Option (Bytes × MDict)
  | none => some ([], m)
  | some s => do
    let r ← m.addSimple (.iri s)
    let b ← labelBytes r.1.value
    return (b, r.2)

mutual
/-- `add_datavalue`, meta_dv_dict.rs:382-485, with `tuple_bytes_mut` and
`add_tuple_datavalue_with_parent`, tuple_dv_dict.rs:206-291, 395-410. -/
def add (m : MDict) : DV → Option (AddResult × MDict)
  | .tuple label vs => do
    match ← m.toId (.tuple label vs) with
    | some g => return (.known g, m)
    | none =>
      let lb ← m.addLabel label
      let es ← addElems lb.2 vs
      let r := kAdd es.2.tups (tupleKey lb.1 es.1)
      finish 5 r.1 { es.2 with tups := r.2 }
  | v => m.addSimple v
/-- The loop over the elements of a tuple in `tuple_bytes_mut`, tuple_dv_dict.rs:225-287. -/
def addElems (m : MDict) : List DV → Option (List (UInt8 × Bytes) × MDict)
  | [] => some ([], m)
  | v :: vs => do
    if isDictElem v then
      let r ← add m v
      let e ← usizeBytes r.1.value 2 1
      let es ← addElems r.2 vs
      return (e :: es.1, es.2)
    else
      let e ← plainElem v
      let es ← addElems m vs
      return (e :: es.1, es.2)
end

/-- `fresh_null`, meta_dv_dict.rs:487-490 with null_dv_dict.rs:48-55: the new null and its id. -/
def freshNull (m : MDict) : Option (DV × Nat × MDict) := do
  let g ← { m with nulls := m.nulls + 1 }.assign 4 m.nulls
  return (.null m.nulls, g.1, g.2)

/-! ### From ids to values -/

/-- `f32::from_be_bytes` and `new_float_from_f32` -/
def finFloat? (e w n : Nat) : Option (FinFloat e w) :=
  if h : ((BitVec.ofNat (1 + e + w) n).toNat >>> w) % 2 ^ e ≠ 2 ^ e - 1 then some ⟨BitVec.ofNat (1 + e + w) n, h⟩
  else none

/-- `id_to_datavalue` of the sub-dictionaries except the one for tuples (string_dv_dict.rs:158-164,
ranked_pair_dv_dict.rs:74-77, null_dv_dict.rs:70-76). -/
def localValue (m : MDict) (d l : Nat) : Option DV :=
  match d with
  | 0 => (m.iris[l]?).map fun p => .iri (p.1 ++ p.2)
  | 1 => (m.strs[l]?).map .str
  | 2 => (m.langs[l]?).bind fun k => (oneToTwo k).map fun p => .lang p.1 (asciiLower p.2)
  | 3 => (m.others[l]?).map fun p => otherValue p.1 p.2
  | 4 => if l < m.nulls then some (.null l) else none
  | _ => none

/-- `copy_from_slice` of the next `n` bytes (tuple_dv_dict.rs:452-458); `none` if there are fewer -/
def takeBytes (n : Nat) (bs : Bytes) : Option (Bytes × Bytes) :=
  if n ≤ bs.length then some (bs.take n, bs.drop n) else none

/-- the size in bytes of an element of a given type (tuple_dv_dict.rs:517-600) -/
def elemSize (t : UInt8) : Option Nat :=
  if t = 1 ∨ t = 3 ∨ t = 5 ∨ t = 6 ∨ t = 8 then some 8
  else if t = 2 ∨ t = 4 ∨ t = 7 then some 4
  else if t = 9 then some 1
  else none

/-- the value of an element that is not stored by dictionary id (tuple_dv_dict.rs:547-600) -/
def plainValue (t : UInt8) (bs : Bytes) : Option DV :=
  if t = 3 ∨ t = 4 then some (.null (fromBe bs))
  else if t = 5 then some (.long (UInt64.ofNat (fromBe bs)).toInt64)
  else if t = 6 then some (.ulong (UInt64.ofNat (fromBe bs)))
  else if t = 7 then (finFloat? 8 23 (fromBe bs)).map .float
  else if t = 8 then (finFloat? 11 52 (fromBe bs)).map .double
  else if t = 9 then some (.bool (bs ≠ [0]))
  else none

/-- a label must be an IRI (tuple_dv_dict.rs:482-484) -/
def asIri : Option DV → Option String
  | some (.iri s) => some s
  | _ => none

/-- the type byte of the next element and the remaining ones (tuple_dv_dict.rs:511-515) -/
def nextType (cur : UInt8) : Bytes → UInt8 × Bytes
  | [] => (cur, [])
  | t :: ts => (t, ts)

mutual
/-- `id_to_datavalue`, meta_dv_dict.rs:514-522. -/
def toValue (m : MDict) (id : Nat) : Option (Option DV) :=
  match m.globalToLocal id with
  | none => some none
  | some (d, l) =>
    if d = 5 then
      match m.tups[l]? with
      | none => some none
      | some p => do
        let r ← decodeLabel m p.1
        let vs ← decodeElems m r.2 0 p.2
        some (some (DV.tuple r.1 vs))
    else some (m.localValue d l)
partial_fixpoint
/-- The label of a tuple and the remaining type bytes (tuple_dv_dict.rs:470-503); for long label ids
the position in the type bytes is advanced twice (line 500). -/
def decodeLabel (m : MDict) (ty : Bytes) : Option (Option String × Bytes) :=
  match ty with
  | [] => some (none, [])
  | t :: ts =>
    if t = 10 then do
      let b ← takeBytes 4 ts
      let v ← toValue m (fromBe b.1)
      let s ← asIri v
      some (some s, b.2)
    else if t = 11 then do
      let b ← takeBytes 8 ts
      let v ← toValue m (fromBe b.1)
      let s ← asIri v
      some (some s, b.2.drop 9)
    else some (none, t :: ts)
partial_fixpoint
/-- The loop over the content of a tuple (tuple_dv_dict.rs:505-603). -/
def decodeElems (m : MDict) (ts : Bytes) (cur : UInt8) (content : Bytes) : Option (List DV) :=
  if content = [] then some []
  else do
    let n ← elemSize (nextType cur ts).1
    let b ← takeBytes n content
    if (nextType cur ts).1 = 1 ∨ (nextType cur ts).1 = 2 then do
      let v ← toValue m (fromBe b.1)
      let v ← v
      let vs ← decodeElems m (nextType cur ts).2 (nextType cur ts).1 b.2
      some (v :: vs)
    else do
      let v ← plainValue (nextType cur ts).1 b.1
      let vs ← decodeElems m (nextType cur ts).2 (nextType cur ts).1 b.2
      some (v :: vs)
partial_fixpoint
end

end MDict
end Verif
