import Verif.Json

/-!
# Importing JSON (C64)

The rows of a document are an exact representation of it: each value has its own id, and following members and positions in the table is the same as
in the document.  So different documents have different tables.
-/

set_option linter.unusedSimpArgs false

namespace Verif.Js
variable {δ : Type}

/-! ## The specification -/

/-- The rows with id `i` in the first column are `(i, p, v)` for the pairs `(p, v)` of a list. -/
def Own (T : List (Row δ)) (i : Nat) (ps : List (Cell δ × Cell δ)) : Prop := ∀ p v, (idCell i, p, v) ∈ T ↔ (p, v) ∈ ps

/-- Positions and ids of the elements of an array -/
def indexed : Nat → List Nat → List (Cell δ × Cell δ)
  | _, [] => []
  | i, c :: cs => (.int (i : Int), idCell c) :: indexed (i + 1) cs

/-- Names and ids of the members of an object -/
def named : List String → List Nat → List (Cell δ × Cell δ)
  | k :: ks, c :: cs => (.str k, idCell c) :: named ks cs
  | _, _ => []

mutual
/-- The table represents a value with a given id: the rows of the id have the type, and either the value or all elements or members, and nothing else; ids
increase from one element or member to the next. -/
def Json.Enc (T : List (Row δ)) : Json δ → Nat → Prop
  | .null, i => Own T i [(.iriType, .str "null")]
  | .bool b, i => Own T i [(.iriType, .str "bool"), (.iriValue, .bool b)]
  | .int n, i => Own T i [(.iriType, .str "number"), (.iriValue, .int n)]
  | .double d, i => Own T i [(.iriType, .str "number"), (.iriValue, .double d)]
  | .string s, i => Own T i [(.iriType, .str "string"), (.iriValue, .str s)]
  | .array es, i => ∃ cs, Own T i ((.iriType, .str "array") :: indexed 0 cs) ∧ cs.Pairwise (· < ·) ∧ EncAll T es cs
  | .object ms, i => ∃ cs, Own T i ((.iriType, .str "object") :: named (ms.map Prod.fst) cs) ∧ cs.Pairwise (· < ·) ∧ EncMembers T ms cs
def EncAll (T : List (Row δ)) : List (Json δ) → List Nat → Prop
  | [], [] => True
  | e :: es, c :: cs => e.Enc T c ∧ EncAll T es cs
  | _, _ => False
def EncMembers (T : List (Row δ)) : List (String × Json δ) → List Nat → Prop
  | [], [] => True
  | (_, e) :: ms, c :: cs => e.Enc T c ∧ EncMembers T ms cs
  | _, _ => False
end

/-- A step from a value to one that it contains -/
inductive Step where
  | position (i : Nat)
  | member (k : String)

/-- The step as a data value -/
def Step.cell : Step → Cell δ
  | .position i => .int (i : Int)
  | .member k => .str k

/-- `j'` is what a document `j` contains at a path. -/
inductive At : Json δ → List Step → Json δ → Prop where
  | here (j : Json δ) : At j [] j
  | element {es : List (Json δ)} {i e p j'} : es[i]? = some e → At e p j' → At (.array es) (.position i :: p) j'
  | member {ms : List (String × Json δ)} {k e p j'} : (k, e) ∈ ms → At e p j' → At (.object ms) (.member k :: p) j'

/-- Following a path in the table: a join of rows -/
inductive Chain (T : List (Row δ)) : Nat → List Step → Nat → Prop where
  | here (i : Nat) : Chain T i [] i
  | step {i c k : Nat} {s : Step} {p : List Step} : (idCell i, s.cell, idCell c) ∈ T → Chain T c p k → Chain T i (s :: p) k

/-! ## Ids -/

theorem idCell_inj {i k : Nat} : (idCell i : Cell δ) = idCell k ↔ i = k := by
  simp only [idCell, Cell.int.injEq]
  omega

mutual
/-- Each represented value has a row. -/
theorem enc_row {T : List (Row δ)} : ∀ (j : Json δ) {i : Nat}, j.Enc T i → ∃ p v, (idCell i, p, v) ∈ T
  | .null, _, h => ⟨_, _, (h _ _).2 List.mem_cons_self⟩
  | .bool _, _, h => ⟨_, _, (h _ _).2 List.mem_cons_self⟩
  | .int _, _, h => ⟨_, _, (h _ _).2 List.mem_cons_self⟩
  | .double _, _, h => ⟨_, _, (h _ _).2 List.mem_cons_self⟩
  | .string _, _, h => ⟨_, _, (h _ _).2 List.mem_cons_self⟩
  | .array _, _, ⟨_, h, _⟩ => ⟨_, _, (h _ _).2 List.mem_cons_self⟩
  | .object _, _, ⟨_, h, _⟩ => ⟨_, _, (h _ _).2 List.mem_cons_self⟩
end

theorem own_append {A T : List (Row δ)} {i k : Nat} {ps : List (Cell δ × Cell δ)} (hA : ∀ r ∈ A, r.1 = idCell k) (hik : i ≠ k) (h : Own T i ps) : Own (A ++ T) i ps := by
  intro p v
  rw [List.mem_append, ← h p v]
  refine ⟨fun h' => h'.resolve_left fun hm => hik ?_, .inr⟩
  exact idCell_inj.1 (hA _ hm)

mutual
/-- Rows of another id do not matter. -/
theorem enc_append {A T : List (Row δ)} {k : Nat} (hA : ∀ r ∈ A, r.1 = idCell k) (hT : ∀ p v, (idCell k, p, v) ∉ T) : ∀ (j : Json δ) {i : Nat}, j.Enc T i → j.Enc (A ++ T) i
  | .null, i, h => own_append hA (by rintro rfl; obtain ⟨p, v, h'⟩ := enc_row _ h; exact hT p v h') h
  | .bool _, i, h => own_append hA (by rintro rfl; obtain ⟨p, v, h'⟩ := enc_row _ h; exact hT p v h') h
  | .int _, i, h => own_append hA (by rintro rfl; obtain ⟨p, v, h'⟩ := enc_row _ h; exact hT p v h') h
  | .double _, i, h => own_append hA (by rintro rfl; obtain ⟨p, v, h'⟩ := enc_row _ h; exact hT p v h') h
  | .string _, i, h => own_append hA (by rintro rfl; obtain ⟨p, v, h'⟩ := enc_row _ h; exact hT p v h') h
  | .array es, i, h => by
    obtain ⟨p, v, h'⟩ := enc_row _ h
    obtain ⟨cs, h1, h2, h3⟩ := h
    exact ⟨cs, own_append hA (by rintro rfl; exact hT p v h') h1, h2, encAll_append hA hT es h3⟩
  | .object ms, i, h => by
    obtain ⟨p, v, h'⟩ := enc_row _ h
    obtain ⟨cs, h1, h2, h3⟩ := h
    exact ⟨cs, own_append hA (by rintro rfl; exact hT p v h') h1, h2, encMembers_append hA hT ms h3⟩
theorem encAll_append {A T : List (Row δ)} {k : Nat} (hA : ∀ r ∈ A, r.1 = idCell k) (hT : ∀ p v, (idCell k, p, v) ∉ T) : ∀ (es : List (Json δ)) {cs : List Nat}, EncAll T es cs → EncAll (A ++ T) es cs
  | [], [], _ => by simp [EncAll]
  | [], _ :: _, h => by simp [EncAll] at h
  | _ :: _, [], h => by simp [EncAll] at h
  | e :: es, c :: cs, h => by
    simp only [EncAll] at h ⊢
    exact ⟨enc_append hA hT e h.1, encAll_append hA hT es h.2⟩
theorem encMembers_append {A T : List (Row δ)} {k : Nat} (hA : ∀ r ∈ A, r.1 = idCell k) (hT : ∀ p v, (idCell k, p, v) ∉ T) : ∀ (ms : List (String × Json δ)) {cs : List Nat}, EncMembers T ms cs → EncMembers (A ++ T) ms cs
  | [], [], _ => by simp [EncMembers]
  | [], _ :: _, h => by simp [EncMembers] at h
  | _ :: _, [], h => by simp [EncMembers] at h
  | (_, e) :: ms, c :: cs, h => by
    simp only [EncMembers] at h ⊢
    exact ⟨enc_append hA hT e h.1, encMembers_append hA hT ms h.2⟩
end

/-! ## The loops -/

/-- The ids `max + 1`, …, `max + n` -/
def newIds (max : Nat) : Nat → List Nat
  | 0 => []
  | n + 1 => (max + 1) :: newIds (max + 1) n

theorem mem_newIds {max n c : Nat} : c ∈ newIds max n ↔ max < c ∧ c ≤ max + n := by
  induction n generalizing max with
  | zero =>
    simp only [newIds, List.not_mem_nil, false_iff]
    omega
  | succ n ih => rw [newIds, List.mem_cons, ih]; omega

theorem newIds_sorted (max n : Nat) : (newIds max n).Pairwise (· < ·) := by
  induction n generalizing max with
  | zero => exact .nil
  | succ n ih => exact .cons (fun c hc => by have := mem_newIds.1 hc; omega) (ih _)

theorem arrayLoop_spec (id i max : Nat) (es : List (Json δ)) : arrayLoop id i max es =
    ((indexed i (newIds max es.length)).map fun x => (idCell id, x), (newIds max es.length).zip es, max + es.length) := by
  induction es generalizing i max with
  | nil => rfl
  | cons e es ih =>
    rw [arrayLoop, ih, List.length_cons, newIds, indexed, List.map_cons, List.zip_cons_cons]
    simp only [Prod.mk.injEq, true_and]
    omega

theorem objectLoop_spec (id max : Nat) (ms : List (String × Json δ)) : objectLoop id max ms =
    ((named (ms.map Prod.fst) (newIds max ms.length)).map fun x => (idCell id, x), (newIds max ms.length).zip (ms.map Prod.snd), max + ms.length) := by
  induction ms generalizing max with
  | nil => rfl
  | cons m ms ih =>
    rw [objectLoop, ih, List.length_cons, newIds, List.map_cons, List.map_cons, named, List.map_cons, List.zip_cons_cons]
    simp only [Prod.mk.injEq, true_and]
    omega

/-- The values that a value contains -/
def Json.children : Json δ → List (Json δ)
  | .array es => es
  | .object ms => ms.map Prod.snd
  | _ => []

/-- What a pass does: all rows are about the id; the contained values are pushed with new ids; and if they are represented then the value is. -/
theorem visit_spec (max id : Nat) (j : Json δ) : (∀ r ∈ (visit max id j).1, r.1 = idCell id) ∧ (visit max id j).2.1 = (newIds max j.children.length).zip j.children ∧
    (visit max id j).2.2 = max + j.children.length ∧
    ∀ T, (∀ p v, (idCell id, p, v) ∉ T) → (∀ x ∈ (newIds max j.children.length).zip j.children, x.2.Enc T x.1) → j.Enc ((visit max id j).1 ++ T) id := by
  have hown : ∀ (ps : List (Cell δ × Cell δ)) (T : List (Row δ)), (∀ p v, (idCell id, p, v) ∉ T) → Own (ps.map (fun x => (idCell id, x)) ++ T) id ps := by
    intro ps T hT p v
    rw [List.mem_append, List.mem_map]
    constructor
    · rintro (⟨x, h1, h2⟩ | h)
      · cases h2; exact h1
      · exact absurd h (hT p v)
    · exact fun h => .inl ⟨_, h, rfl⟩
  cases j with
  | null => exact ⟨by simp [visit], rfl, rfl, fun T hT _ => hown [(.iriType, .str "null")] T hT⟩
  | bool b => exact ⟨by simp [visit], rfl, rfl, fun T hT _ => hown [(.iriType, .str "bool"), (.iriValue, .bool b)] T hT⟩
  | int n => exact ⟨by simp [visit], rfl, rfl, fun T hT _ => hown [(.iriType, .str "number"), (.iriValue, .int n)] T hT⟩
  | double d => exact ⟨by simp [visit], rfl, rfl, fun T hT _ => hown [(.iriType, .str "number"), (.iriValue, .double d)] T hT⟩
  | string s => exact ⟨by simp [visit], rfl, rfl, fun T hT _ => hown [(.iriType, .str "string"), (.iriValue, .str s)] T hT⟩
  | array es =>
    have hv : visit max id (.array es) = (((.iriType, .str "array") :: indexed 0 (newIds max es.length)).map fun x => (idCell id, x), (newIds max es.length).zip es, max + es.length) := by
      rw [visit, arrayLoop_spec]; rfl
    rw [hv]
    refine ⟨fun r hr => ?_, rfl, rfl, fun T hT hc => ?_⟩
    · obtain ⟨x, -, rfl⟩ := List.mem_map.1 hr
      rfl
    · refine ⟨newIds max es.length, hown _ T hT, newIds_sorted _ _, ?_⟩
      refine encAll_append (k := id) (fun r hr => ?_) hT es ?_
      · obtain ⟨x, -, rfl⟩ := List.mem_map.1 hr
        rfl
      · clear hv
        revert hc
        dsimp only [Json.children]
        generalize max = m
        induction es generalizing m with
        | nil => intro _; simp [EncAll, newIds]
        | cons e es ih =>
          intro hc
          rw [List.length_cons, newIds] at hc ⊢
          rw [List.zip_cons_cons] at hc
          simp only [EncAll]
          exact ⟨hc _ List.mem_cons_self, ih _ fun x hx => hc x (List.mem_cons_of_mem _ hx)⟩
  | object ms =>
    have hv : visit max id (.object ms) = (((.iriType, .str "object") :: named (ms.map Prod.fst) (newIds max ms.length)).map fun x => (idCell id, x),
        (newIds max ms.length).zip (ms.map Prod.snd), max + ms.length) := by
      rw [visit, objectLoop_spec]; rfl
    rw [hv]
    refine ⟨fun r hr => ?_, ?_, ?_, fun T hT hc => ?_⟩
    · obtain ⟨x, -, rfl⟩ := List.mem_map.1 hr
      rfl
    · simp [Json.children]
    · simp [Json.children]
    · refine ⟨newIds max ms.length, hown _ T hT, newIds_sorted _ _, ?_⟩
      refine encMembers_append (k := id) (fun r hr => ?_) hT ms ?_
      · obtain ⟨x, -, rfl⟩ := List.mem_map.1 hr
        rfl
      · clear hv
        revert hc
        dsimp only [Json.children]
        rw [List.length_map]
        generalize max = m
        induction ms generalizing m with
        | nil => intro _; simp [EncMembers, newIds]
        | cons e es ih =>
          intro hc
          rw [List.length_cons, newIds] at hc ⊢
          rw [List.map_cons, List.zip_cons_cons] at hc
          obtain ⟨k, e⟩ := e
          simp only [EncMembers]
          exact ⟨hc _ List.mem_cons_self, ih _ fun x hx => hc x (List.mem_cons_of_mem _ hx)⟩

theorem sizes_sum (es : List (Json δ)) : sizes es = (es.map Json.size).sum := by
  induction es with
  | nil => rfl
  | cons e es ih => rw [sizes, ih, List.map_cons, List.sum_cons]

theorem memberSizes_sum (ms : List (String × Json δ)) : memberSizes ms = ((ms.map Prod.snd).map Json.size).sum := by
  induction ms with
  | nil => rfl
  | cons e es ih => rw [memberSizes, ih, List.map_cons, List.map_cons, List.sum_cons]

theorem size_children (j : Json δ) : j.size = (j.children.map Json.size).sum + 1 := by
  cases j with
  | array es => rw [Json.size, sizes_sum]; rfl
  | object ms => rw [Json.size, memberSizes_sum]; rfl
  | _ => rfl

theorem newIds_length (max n : Nat) : (newIds max n).length = n := by
  induction n generalizing max with
  | zero => rfl
  | succ n ih => rw [newIds, List.length_cons, ih]

theorem sum_zip (ids : List Nat) (es : List (Json δ)) (h : ids.length = es.length) : ((ids.zip es).map fun x => x.2.size).sum = (es.map Json.size).sum := by
  induction es generalizing ids with
  | nil => simp
  | cons e es ih =>
    cases ids with
    | nil => cases h
    | cons i ids =>
      rw [List.zip_cons_cons, List.map_cons, List.map_cons, List.sum_cons, List.sum_cons, ih ids (by simpa using h)]

/-- **The loop ends, and each value on the stack is represented in its rows.** -/
theorem readLoop_spec (n max : Nat) (stack : List (Nat × Json δ)) (hn : (stack.map fun x => x.2.size).sum ≤ n) (hd : (stack.map Prod.fst).Nodup) (hm : ∀ x ∈ stack, x.1 ≤ max) :
    ∃ T, readLoop n max stack = some T ∧ (∀ x ∈ stack, x.2.Enc T x.1) ∧ ∀ r ∈ T, ∃ i, r.1 = idCell i ∧ (i ∈ stack.map Prod.fst ∨ max < i) := by
  induction n generalizing max stack with
  | zero =>
    cases stack with
    | nil => exact ⟨[], by simp [readLoop], by simp, by simp⟩
    | cons x stack =>
      rw [List.map_cons, List.sum_cons, size_children] at hn
      omega
  | succ n ih =>
    cases stack with
    | nil => exact ⟨[], by simp [readLoop], by simp, by simp⟩
    | cons x stack =>
      obtain ⟨id, j⟩ := x
      obtain ⟨h1, h2, h3, h4⟩ := visit_spec max id j
      rw [List.map_cons, List.nodup_cons] at hd
      have hid : id ≤ max := hm (id, j) List.mem_cons_self
      have hzip : ((newIds max j.children.length).zip j.children).map Prod.fst = newIds max j.children.length := by
        exact List.map_fst_zip (Nat.le_of_eq (newIds_length _ _))
      obtain ⟨T, h5, h6, h7⟩ := ih (max + j.children.length) (((newIds max j.children.length).zip j.children).reverse ++ stack)
        (by
          rw [List.map_append, List.sum_append, List.map_reverse, List.sum_reverse, sum_zip _ _ (newIds_length _ _)]
          rw [List.map_cons, List.sum_cons, size_children] at hn
          dsimp only at hn
          omega)
        (by
          rw [List.map_append, List.map_reverse, hzip, List.nodup_append]
          refine ⟨List.pairwise_reverse.2 ((newIds_sorted _ _).imp fun h => by omega), hd.2, fun a ha b hb hab => ?_⟩
          obtain ⟨x, hx, rfl⟩ := List.mem_map.1 hb
          have := hm x (List.mem_cons_of_mem _ hx)
          have := (mem_newIds.1 (List.mem_reverse.1 ha)).1
          omega)
        (by
          intro x hx
          rcases List.mem_append.1 hx with hx | hx
          · have : x.1 ∈ newIds max j.children.length := by
              rw [← hzip]
              exact List.mem_map_of_mem (List.mem_reverse.1 hx)
            exact (mem_newIds.1 this).2
          · have := hm x (List.mem_cons_of_mem _ hx)
            omega)
      have hsub : ∀ r ∈ T, ∃ i, r.1 = idCell i ∧ (i ∈ stack.map Prod.fst ∨ max < i) := by
        intro r hr
        obtain ⟨i, hi1, hi2⟩ := h7 r hr
        refine ⟨i, hi1, ?_⟩
        rcases hi2 with hi2 | hi2
        · rw [List.map_append, List.map_reverse, hzip, List.mem_append, List.mem_reverse] at hi2
          rcases hi2 with hi2 | hi2
          · exact .inr (mem_newIds.1 hi2).1
          · exact .inl hi2
        · exact .inr (by omega)
      have hT : ∀ p v, (idCell id, p, v) ∉ T := by
        intro p v hr
        obtain ⟨i, hi1, hi2⟩ := hsub _ hr
        obtain rfl := idCell_inj.1 hi1
        rcases hi2 with hi2 | hi2
        · exact hd.1 hi2
        · omega
      refine ⟨(visit max id j).1 ++ T, by rw [readLoop, h2, h3, h5]; rfl, fun x hx => ?_, fun r hr => ?_⟩
      · rcases List.mem_cons.1 hx with rfl | hx
        · exact h4 T hT fun y hy => h6 y (List.mem_append_left _ (List.mem_reverse.2 hy))
        · exact enc_append h1 hT _ (h6 x (List.mem_append_right _ hx))
      · rcases List.mem_append.1 hr with hr | hr
        · exact ⟨id, h1 r hr, .inl List.mem_cons_self⟩
        · obtain ⟨i, hi1, hi2⟩ := hsub r hr
          exact ⟨i, hi1, hi2.imp (List.mem_cons_of_mem _) fun h => h⟩

/-- **The table of a document represents it with id 0.** -/
theorem json_represented (j : Json δ) : ∃ T, readJson j = some T ∧ j.Enc T 0 := by
  obtain ⟨T, h1, h2, -⟩ := readLoop_spec j.size 0 [(0, j)] (by simp) (by simp) (by simp)
  exact ⟨T, h1, h2 (0, j) List.mem_cons_self⟩

/-! ## The document is determined by the table -/

theorem mem_indexed {i : Nat} {cs : List Nat} {p v : Cell δ} : (p, v) ∈ indexed i cs ↔ ∃ k c, cs[k]? = some c ∧ p = .int ((i + k : Nat) : Int) ∧ v = idCell c := by
  induction cs generalizing i with
  | nil => simp [indexed]
  | cons c cs ih =>
    rw [indexed, List.mem_cons, ih]
    constructor
    · rintro (h | ⟨k, d, h1, h2, h3⟩)
      · cases h; exact ⟨0, c, rfl, rfl, rfl⟩
      · exact ⟨k + 1, d, h1, by rw [h2, show i + 1 + k = i + (k + 1) by omega], h3⟩
    · rintro ⟨k, d, h1, h2, h3⟩
      cases k with
      | zero =>
        rw [List.getElem?_cons_zero] at h1
        cases h1
        exact .inl (by rw [h2, h3]; rfl)
      | succ k => exact .inr ⟨k, d, h1, by rw [h2, show i + 1 + k = i + (k + 1) by omega], h3⟩

theorem mem_named {ks : List String} {cs : List Nat} {p v : Cell δ} : (p, v) ∈ named ks cs ↔ ∃ k c, (k, c) ∈ ks.zip cs ∧ p = .str k ∧ v = idCell c := by
  induction ks generalizing cs with
  | nil => simp [named]
  | cons k ks ih =>
    cases cs with
    | nil => simp [named]
    | cons c cs =>
      rw [named, List.mem_cons, ih, List.zip_cons_cons]
      constructor
      · rintro (h | ⟨k', d, h1, h2, h3⟩)
        · cases h; exact ⟨k, c, List.mem_cons_self, rfl, rfl⟩
        · exact ⟨k', d, List.mem_cons_of_mem _ h1, h2, h3⟩
      · rintro ⟨k', d, h1, h2, h3⟩
        rcases List.mem_cons.1 h1 with h1 | h1
        · cases h1; exact .inl (by rw [h2, h3])
        · exact .inr ⟨k', d, h1, h2, h3⟩

/-- Lists that are sorted by ids are equal if they have the same elements. -/
theorem sorted_ext {l l' : List (String × Nat)} (h : (l.map Prod.snd).Pairwise (· < ·)) (h' : (l'.map Prod.snd).Pairwise (· < ·)) (hm : ∀ x, x ∈ l ↔ x ∈ l') : l = l' := by
  induction l generalizing l' with
  | nil =>
    cases l' with
    | nil => rfl
    | cons y l' => exact absurd ((hm y).2 List.mem_cons_self) List.not_mem_nil
  | cons x l ih =>
    cases l' with
    | nil => exact absurd ((hm x).1 List.mem_cons_self) List.not_mem_nil
    | cons y l' =>
      rw [List.map_cons, List.pairwise_cons] at h h'
      have hxy : x = y := by
        rcases List.mem_cons.1 ((hm x).1 List.mem_cons_self) with hx | hx
        · exact hx
        · rcases List.mem_cons.1 ((hm y).2 List.mem_cons_self) with hy | hy
          · exact hy.symm
          · have h1 := h.1 y.2 (List.mem_map_of_mem hy)
            have h2 := h'.1 x.2 (List.mem_map_of_mem hx)
            omega
      subst hxy
      rw [ih h.2 h'.2 fun z => ?_]
      constructor
      · intro hz
        rcases List.mem_cons.1 ((hm z).1 (List.mem_cons_of_mem _ hz)) with rfl | hz'
        · have := h.1 z.2 (List.mem_map_of_mem hz)
          omega
        · exact hz'
      · intro hz
        rcases List.mem_cons.1 ((hm z).2 (List.mem_cons_of_mem _ hz)) with rfl | hz'
        · have := h'.1 z.2 (List.mem_map_of_mem hz)
          omega
        · exact hz'

theorem encAll_length {T : List (Row δ)} : ∀ {es : List (Json δ)} {cs : List Nat}, EncAll T es cs → es.length = cs.length
  | [], [], _ => rfl
  | [], _ :: _, h => by simp [EncAll] at h
  | _ :: _, [], h => by simp [EncAll] at h
  | _ :: es, _ :: cs, h => by
    simp only [EncAll] at h
    rw [List.length_cons, List.length_cons, encAll_length h.2]

theorem encMembers_length {T : List (Row δ)} : ∀ {ms : List (String × Json δ)} {cs : List Nat}, EncMembers T ms cs → ms.length = cs.length
  | [], [], _ => rfl
  | [], _ :: _, h => by simp [EncMembers] at h
  | _ :: _, [], h => by simp [EncMembers] at h
  | (_, _) :: ms, _ :: cs, h => by
    simp only [EncMembers] at h
    rw [List.length_cons, List.length_cons, encMembers_length h.2]

/-- The type of a value, as it is written in the table -/
def Json.type : Json δ → String
  | .null => "null"
  | .bool _ => "bool"
  | .int _ => "number"
  | .double _ => "number"
  | .string _ => "string"
  | .array _ => "array"
  | .object _ => "object"

theorem type_row {T : List (Row δ)} (j : Json δ) {i : Nat} (h : j.Enc T i) (v : Cell δ) : (idCell i, Cell.iriType, v) ∈ T ↔ v = .str j.type := by
  cases j with
  | array es =>
    obtain ⟨cs, h1, -⟩ := h
    rw [h1, List.mem_cons, mem_indexed]
    simp [Json.type]
  | object ms =>
    obtain ⟨cs, h1, -⟩ := h
    rw [h1, List.mem_cons, mem_named]
    simp [Json.type]
  | _ => rw [h]; simp [Json.type]

/-- The value of a value that has no parts -/
def Json.value : Json δ → Option (Cell δ)
  | .bool b => some (.bool b)
  | .int n => some (.int n)
  | .double d => some (.double d)
  | .string s => some (.str s)
  | _ => none

theorem value_row {T : List (Row δ)} (j : Json δ) {i : Nat} (h : j.Enc T i) (v : Cell δ) : (idCell i, Cell.iriValue, v) ∈ T ↔ j.value = some v := by
  cases j with
  | array es =>
    obtain ⟨cs, h1, -⟩ := h
    rw [h1, List.mem_cons, mem_indexed]
    simp [Json.value]
  | object ms =>
    obtain ⟨cs, h1, -⟩ := h
    rw [h1, List.mem_cons, mem_named]
    simp [Json.value]
  | _ => rw [h]; simp [Json.value, eq_comm]

theorem ids_ext {cs cs' : List Nat} {T : List (Row δ)} {i : Nat} {x : Cell δ × Cell δ} (hx : x.1 = .iriType) (h : Own T i (x :: indexed 0 cs)) (h' : Own T i (x :: indexed 0 cs')) : cs = cs' := by
  have hget : ∀ {cs cs' : List Nat}, Own T i (x :: indexed 0 cs) → Own T i (x :: indexed 0 cs') → ∀ (k c : Nat), cs[k]? = some c → cs'[k]? = some c := by
    intro cs cs' h h' k c hk
    have h1 : ((.int (k : Int), idCell c) : Cell δ × Cell δ) ∈ x :: indexed 0 cs := List.mem_cons_of_mem _ (mem_indexed.2 ⟨k, c, hk, by simp, rfl⟩)
    rw [← h, h'] at h1
    rcases List.mem_cons.1 h1 with h1 | h1
    · rw [← h1] at hx; cases hx
    · obtain ⟨k', c', h2, h3, h4⟩ := mem_indexed.1 h1
      have hk' : k = k' := by
        simp at h3
        omega
      rw [hk', idCell_inj.1 h4]
      exact h2
  refine List.ext_getElem? fun k => ?_
  cases h1 : cs[k]? with
  | some c => rw [hget h h' k c h1]
  | none =>
    cases h2 : cs'[k]? with
    | none => rfl
    | some c => rw [hget h' h k c h2] at h1; cases h1

theorem members_ext {ks ks' : List String} {cs cs' : List Nat} {T : List (Row δ)} {i : Nat} {x : Cell δ × Cell δ} (hx : x.1 = .iriType) (hl : ks.length = cs.length) (hl' : ks'.length = cs'.length)
    (hs : cs.Pairwise (· < ·)) (hs' : cs'.Pairwise (· < ·)) (h : Own T i (x :: named ks cs)) (h' : Own T i (x :: named ks' cs')) : ks = ks' ∧ cs = cs' := by
  have hget : ∀ {ks ks' : List String} {cs cs' : List Nat}, Own T i (x :: named ks cs) → Own T i (x :: named ks' cs') → ∀ y, y ∈ ks.zip cs → y ∈ ks'.zip cs' := by
    intro ks ks' cs cs' h h' y hy
    have h1 : ((.str y.1, idCell y.2) : Cell δ × Cell δ) ∈ x :: named ks cs := List.mem_cons_of_mem _ (mem_named.2 ⟨y.1, y.2, hy, rfl, rfl⟩)
    rw [← h, h'] at h1
    rcases List.mem_cons.1 h1 with h1 | h1
    · rw [← h1] at hx; cases hx
    · obtain ⟨k', c', h2, h3, h4⟩ := mem_named.1 h1
      obtain ⟨a, b⟩ := y
      have hk : a = k' := by simpa using h3
      have hc := idCell_inj.1 h4
      dsimp only at hc
      rw [hk, hc]
      exact h2
  have hz : ks.zip cs = ks'.zip cs' := by
    refine sorted_ext ?_ ?_ fun y => ⟨hget h h' y, hget h' h y⟩
    · rw [List.map_snd_zip (by omega)]; exact hs
    · rw [List.map_snd_zip (by omega)]; exact hs'
  have h1 := congrArg (List.map Prod.fst) hz
  have h2 := congrArg (List.map Prod.snd) hz
  rw [List.map_fst_zip (by omega), List.map_fst_zip (by omega)] at h1
  rw [List.map_snd_zip (by omega), List.map_snd_zip (by omega)] at h2
  exact ⟨h1, h2⟩

mutual
/-- A table represents at most one document with an id. -/
theorem enc_unique {T : List (Row δ)} : ∀ (j : Json δ) {j' : Json δ} {i : Nat}, j.Enc T i → j'.Enc T i → j = j'
  | .array es, j', i, h, h' => by
    have ht := (type_row _ h' _).1 ((type_row _ h _).2 rfl)
    cases j' with
    | array es' =>
      obtain ⟨cs, h1, h2, h3⟩ := h
      obtain ⟨cs', h1', h2', h3'⟩ := h'
      obtain rfl := ids_ext rfl h1 h1'
      rw [encAll_unique es h3 h3']
    | _ => simp [Json.type] at ht
  | .object ms, j', i, h, h' => by
    have ht := (type_row _ h' _).1 ((type_row _ h _).2 rfl)
    cases j' with
    | object ms' =>
      obtain ⟨cs, h1, h2, h3⟩ := h
      obtain ⟨cs', h1', h2', h3'⟩ := h'
      obtain ⟨hk, rfl⟩ := members_ext rfl (by rw [List.length_map]; exact encMembers_length h3) (by rw [List.length_map]; exact encMembers_length h3') h2 h2' h1 h1'
      rw [encMembers_unique ms h3 h3' hk]
    | _ => simp [Json.type] at ht
  | .null, j', i, h, h' => by
    have ht := (type_row _ h' _).1 ((type_row _ h _).2 rfl)
    cases j' with
    | null => rfl
    | _ => simp [Json.type] at ht
  | .bool b, j', i, h, h' => by
    have ht := (value_row _ h' _).1 ((value_row _ h (.bool b)).2 rfl)
    cases j' <;> simp [Json.value] at ht
    rw [ht]
  | .int n, j', i, h, h' => by
    have ht := (value_row _ h' _).1 ((value_row _ h (.int n)).2 rfl)
    cases j' <;> simp [Json.value] at ht
    rw [ht]
  | .double d, j', i, h, h' => by
    have ht := (value_row _ h' _).1 ((value_row _ h (.double d)).2 rfl)
    cases j' <;> simp [Json.value] at ht
    rw [ht]
  | .string s, j', i, h, h' => by
    have ht := (value_row _ h' _).1 ((value_row _ h (.str s)).2 rfl)
    cases j' <;> simp [Json.value] at ht
    rw [ht]
theorem encAll_unique {T : List (Row δ)} : ∀ (es : List (Json δ)) {es' : List (Json δ)} {cs : List Nat}, EncAll T es cs → EncAll T es' cs → es = es'
  | [], [], _, _, _ => rfl
  | [], _ :: _, [], _, h => by simp [EncAll] at h
  | [], _ :: _, _ :: _, h, _ => by simp [EncAll] at h
  | _ :: _, [], [], h, _ => by simp [EncAll] at h
  | _ :: _, [], _ :: _, _, h => by simp [EncAll] at h
  | _ :: _, _ :: _, [], h, _ => by simp [EncAll] at h
  | e :: es, e' :: es', c :: cs, h, h' => by
    simp only [EncAll] at h h'
    rw [enc_unique e h.1 h'.1, encAll_unique es h.2 h'.2]
theorem encMembers_unique {T : List (Row δ)} : ∀ (ms : List (String × Json δ)) {ms' : List (String × Json δ)} {cs : List Nat}, EncMembers T ms cs → EncMembers T ms' cs →
    ms.map Prod.fst = ms'.map Prod.fst → ms = ms'
  | [], [], _, _, _, _ => rfl
  | [], _ :: _, _, _, _, h => by simp at h
  | _ :: _, [], _, _, _, h => by simp at h
  | (_, _) :: _, _ :: _, [], h, _, _ => by simp [EncMembers] at h
  | (k, e) :: ms, (k', e') :: ms', c :: cs, h, h', hk => by
    simp only [EncMembers] at h h'
    rw [List.map_cons, List.map_cons, List.cons.injEq] at hk
    rw [enc_unique e h.1 h'.1, encMembers_unique ms h.2 h'.2 hk.2, show k = k' from hk.1]
end

theorem own_congr {T T' : List (Row δ)} (h : ∀ r, r ∈ T ↔ r ∈ T') {i : Nat} {ps : List (Cell δ × Cell δ)} (ho : Own T i ps) : Own T' i ps := fun p v => by rw [← h]; exact ho p v

mutual
theorem enc_congr {T T' : List (Row δ)} (h : ∀ r, r ∈ T ↔ r ∈ T') : ∀ (j : Json δ) {i : Nat}, j.Enc T i → j.Enc T' i
  | .null, _, he => own_congr h he
  | .bool _, _, he => own_congr h he
  | .int _, _, he => own_congr h he
  | .double _, _, he => own_congr h he
  | .string _, _, he => own_congr h he
  | .array es, _, ⟨cs, h1, h2, h3⟩ => ⟨cs, own_congr h h1, h2, encAll_congr h es h3⟩
  | .object ms, _, ⟨cs, h1, h2, h3⟩ => ⟨cs, own_congr h h1, h2, encMembers_congr h ms h3⟩
theorem encAll_congr {T T' : List (Row δ)} (h : ∀ r, r ∈ T ↔ r ∈ T') : ∀ (es : List (Json δ)) {cs : List Nat}, EncAll T es cs → EncAll T' es cs
  | [], [], _ => by simp [EncAll]
  | [], _ :: _, he => by simp [EncAll] at he
  | _ :: _, [], he => by simp [EncAll] at he
  | e :: es, c :: cs, he => by
    simp only [EncAll] at he ⊢
    exact ⟨enc_congr h e he.1, encAll_congr h es he.2⟩
theorem encMembers_congr {T T' : List (Row δ)} (h : ∀ r, r ∈ T ↔ r ∈ T') : ∀ (ms : List (String × Json δ)) {cs : List Nat}, EncMembers T ms cs → EncMembers T' ms cs
  | [], [], _ => by simp [EncMembers]
  | [], _ :: _, he => by simp [EncMembers] at he
  | _ :: _, [], he => by simp [EncMembers] at he
  | (_, e) :: ms, c :: cs, he => by
    simp only [EncMembers] at he ⊢
    exact ⟨enc_congr h e he.1, encMembers_congr h ms he.2⟩
end

/-- **Different documents have different tables**, as sets of rows. -/
theorem json_lossless {j j' : Json δ} {T T' : List (Row δ)} (h : readJson j = some T) (h' : readJson j' = some T') (hT : ∀ r, r ∈ T ↔ r ∈ T') : j = j' := by
  obtain ⟨S, h1, h2⟩ := json_represented j
  obtain ⟨S', h1', h2'⟩ := json_represented j'
  rw [h] at h1
  rw [h'] at h1'
  cases h1
  cases h1'
  exact enc_unique j (enc_congr hT j h2) h2'

/-! ## Paths -/

theorem encAll_get {T : List (Row δ)} : ∀ {es : List (Json δ)} {cs : List Nat} {k : Nat} {e : Json δ}, EncAll T es cs → es[k]? = some e → ∃ c, cs[k]? = some c ∧ e.Enc T c
  | [], _, _, _, _, hk => by simp at hk
  | _ :: _, [], _, _, h, _ => by simp [EncAll] at h
  | e :: es, c :: cs, 0, e', h, hk => by
    simp only [EncAll] at h
    rw [List.getElem?_cons_zero] at hk
    cases hk
    exact ⟨c, rfl, h.1⟩
  | e :: es, c :: cs, k + 1, e', h, hk => by
    simp only [EncAll] at h
    rw [List.getElem?_cons_succ] at hk
    have := encAll_get h.2 hk
    rw [List.getElem?_cons_succ]
    exact this

theorem encMembers_get {T : List (Row δ)} : ∀ {ms : List (String × Json δ)} {cs : List Nat} {k : String} {e : Json δ}, EncMembers T ms cs → (k, e) ∈ ms →
    ∃ c, (k, c) ∈ (ms.map Prod.fst).zip cs ∧ e.Enc T c
  | [], _, _, _, _, hk => by simp at hk
  | _ :: _, [], _, _, h, _ => by simp [EncMembers] at h
  | (k', e) :: ms, c :: cs, k, e', h, hk => by
    simp only [EncMembers] at h
    rcases List.mem_cons.1 hk with hk | hk
    · cases hk
      exact ⟨c, by simp, h.1⟩
    · obtain ⟨d, h1, h2⟩ := encMembers_get h.2 hk
      exact ⟨d, by rw [List.map_cons, List.zip_cons_cons]; exact List.mem_cons_of_mem _ h1, h2⟩

theorem encAll_get' {T : List (Row δ)} : ∀ {es : List (Json δ)} {cs : List Nat} {k c : Nat}, EncAll T es cs → cs[k]? = some c → ∃ e, es[k]? = some e ∧ e.Enc T c
  | _, [], _, _, _, hk => by simp at hk
  | [], _ :: _, _, _, h, _ => by simp [EncAll] at h
  | e :: es, c :: cs, 0, _, h, hk => by
    simp only [EncAll] at h
    rw [List.getElem?_cons_zero] at hk
    cases hk
    exact ⟨e, rfl, h.1⟩
  | e :: es, c :: cs, k + 1, _, h, hk => by
    simp only [EncAll] at h
    rw [List.getElem?_cons_succ] at hk
    have := encAll_get' h.2 hk
    rw [List.getElem?_cons_succ]
    exact this

theorem encMembers_get' {T : List (Row δ)} : ∀ {ms : List (String × Json δ)} {cs : List Nat} {k : String} {c : Nat}, EncMembers T ms cs → (k, c) ∈ (ms.map Prod.fst).zip cs →
    ∃ e, (k, e) ∈ ms ∧ e.Enc T c
  | [], _, _, _, _, hk => by simp at hk
  | _ :: _, [], _, _, h, _ => by simp [EncMembers] at h
  | (k', e) :: ms, c :: cs, k, _, h, hk => by
    simp only [EncMembers] at h
    rw [List.map_cons, List.zip_cons_cons] at hk
    rcases List.mem_cons.1 hk with hk | hk
    · cases hk
      exact ⟨e, List.mem_cons_self, h.1⟩
    · obtain ⟨d, h1, h2⟩ := encMembers_get' h.2 hk
      exact ⟨d, List.mem_cons_of_mem _ h1, h2⟩

theorem chain_of_at {T : List (Row δ)} {j j' : Json δ} {p : List Step} (h : At j p j') : ∀ {i : Nat}, j.Enc T i → ∃ k, Chain T i p k ∧ j'.Enc T k := by
  induction h with
  | here j => exact fun he => ⟨_, .here _, he⟩
  | element hk _ ih =>
    rintro i ⟨cs, h1, -, h3⟩
    obtain ⟨c, h4, h5⟩ := encAll_get h3 hk
    obtain ⟨k, h6, h7⟩ := ih h5
    exact ⟨k, .step ((h1 _ _).2 (List.mem_cons_of_mem _ (mem_indexed.2 ⟨_, c, h4, by simp [Step.cell], rfl⟩))) h6, h7⟩
  | member hk _ ih =>
    rintro i ⟨cs, h1, -, h3⟩
    obtain ⟨c, h4, h5⟩ := encMembers_get h3 hk
    obtain ⟨k, h6, h7⟩ := ih h5
    exact ⟨k, .step ((h1 _ _).2 (List.mem_cons_of_mem _ (mem_named.2 ⟨_, c, h4, rfl, rfl⟩))) h6, h7⟩

theorem at_of_chain {T : List (Row δ)} {i k : Nat} {p : List Step} (h : Chain T i p k) : ∀ {j : Json δ}, j.Enc T i → ∃ j', At j p j' ∧ j'.Enc T k := by
  induction h with
  | here i => exact fun he => ⟨_, .here _, he⟩
  | @step i c k s p hr _ ih =>
    intro j he
    cases j with
    | array es =>
      obtain ⟨cs, h1, -, h3⟩ := he
      rcases List.mem_cons.1 ((h1 _ _).1 hr) with h4 | h4
      · cases s <;> simp [Step.cell] at h4
      · obtain ⟨n, d, h5, h6, h7⟩ := mem_indexed.1 h4
        cases s with
        | member m => simp [Step.cell] at h6
        | position m =>
          have hm : m = n := by
            simp [Step.cell] at h6
            omega
          subst hm
          obtain rfl := idCell_inj.1 h7
          obtain ⟨e, h8, h9⟩ := encAll_get' h3 h5
          obtain ⟨j', h10, h11⟩ := ih h9
          exact ⟨j', .element h8 h10, h11⟩
    | object ms =>
      obtain ⟨cs, h1, -, h3⟩ := he
      rcases List.mem_cons.1 ((h1 _ _).1 hr) with h4 | h4
      · cases s <;> simp [Step.cell] at h4
      · obtain ⟨n, d, h5, h6, h7⟩ := mem_named.1 h4
        cases s with
        | position m => simp [Step.cell] at h6
        | member m =>
          have hm : m = n := by simpa [Step.cell] using h6
          subst hm
          obtain rfl := idCell_inj.1 h7
          obtain ⟨e, h8, h9⟩ := encMembers_get' h3 h5
          obtain ⟨j', h10, h11⟩ := ih h9
          exact ⟨j', .member h8 h10, h11⟩
    | _ =>
      have := (he _ _).1 hr
      cases s <;> simp [Step.cell] at this

/-- **Following a path in the table leads to the values of the document at this path**: there is a value at a path iff rows of the table can be joined along the
path, and then the id at the end has the type and the value. -/
theorem json_paths {j : Json δ} {T : List (Row δ)} (h : readJson j = some T) (p : List Step) :
    (∀ j', At j p j' → ∃ k, Chain T 0 p k ∧ (idCell k, .iriType, .str j'.type) ∈ T ∧ j'.Enc T k) ∧
    ∀ k, Chain T 0 p k → ∃ j', At j p j' ∧ (∀ v, (idCell k, .iriType, v) ∈ T ↔ v = .str j'.type) ∧ (∀ v, (idCell k, .iriValue, v) ∈ T ↔ j'.value = some v) := by
  obtain ⟨S, h1, h2⟩ := json_represented j
  rw [h] at h1
  cases h1
  refine ⟨fun j' ha => ?_, fun k hc => ?_⟩
  · obtain ⟨k, h3, h4⟩ := chain_of_at ha h2
    exact ⟨k, h3, (type_row _ h4 _).2 rfl, h4⟩
  · obtain ⟨j', h3, h4⟩ := at_of_chain hc h2
    exact ⟨j', h3, type_row _ h4, value_row _ h4⟩

end Verif.Js
