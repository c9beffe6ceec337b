/-
Expressions and their compilation to stack programs
(nemo-physical/src/function/tree.rs, nemo-physical/src/function/evaluation.rs).

The functions themselves are a parameter `Sem` here (they are modelled in `Verif.Builtins`), so the
theorems hold whatever the functions do, including functions that are undefined or that panic.
-/

set_option linter.unusedVariables false
set_option linter.unusedSimpArgs false

namespace Verif

/-- Outcome of a Rust function returning `Option<α>`: a value, `None`, or a panic. -/
inductive Res (α : Type) where
  | val (a : α)
  | undef
  | panic
  deriving DecidableEq, Repr

namespace Res

/-- The `?` operator: `None` and panics abort. -/
def bind {α β : Type} : Res α → (α → Res β) → Res β
  | .val a, f => f a
  | .undef, _ => .undef
  | .panic, _ => .panic

instance : Monad Res where
  pure := .val
  bind := Res.bind

@[simp] theorem bind_val {α β : Type} (a : α) (f : α → Res β) : (Res.val a >>= f) = f a := rfl
@[simp] theorem bind_undef {α β : Type} (f : α → Res β) : (Res.undef >>= f) = Res.undef := rfl
@[simp] theorem bind_panic {α β : Type} (f : α → Res β) : (Res.panic >>= f) = Res.panic := rfl
@[simp] theorem pure_val {α : Type} (a : α) : (pure a : Res α) = Res.val a := rfl

theorem bind_assoc {α β γ : Type} (x : Res α) (f : α → Res β) (g : β → Res γ) :
    (x >>= f) >>= g = x >>= fun a => f a >>= g := by cases x <;> rfl

/-- `Option` seen as an outcome without panics. -/
def ofOption {α : Type} : Option α → Res α
  | some a => .val a
  | none => .undef

theorem bind_eq_val {α β : Type} {x : Res α} {f : α → Res β} {b : β} :
    (x >>= f) = .val b ↔ ∃ a, x = .val a ∧ f a = .val b := by
  cases x <;> simp

end Res

section
variable {V U B T N R : Type}

/-- evaluation.rs:26-36 `StackValue`. -/
inductive StackVal (V : Type) where
  | const (v : V)
  | ref (i : Nat)
  | this
  deriving DecidableEq, Repr

/-- evaluation.rs:48-60 `StackOperation`; `U`, `B`, `T`, `N` are the four function enums. -/
inductive SOp (V U B T N : Type) where
  | push (v : StackVal V)
  | un (f : U)
  | bin (f : B)
  | ter (f : T)
  | nary (f : N) (k : Nat)

/-- tree.rs:42-88 `FunctionTree`. -/
inductive FTree (V U B T N R : Type) where
  | const (v : V)
  | ref (r : R)
  | un (f : U) (a : FTree V U B T N R)
  | bin (f : B) (a b : FTree V U B T N R)
  | ter (f : T) (a b c : FTree V U B T N R)
  | nary (f : N) (as : List (FTree V U B T N R))

/-- The `evaluate` methods of the function enums (definitions.rs:121-140, 241-254, 350-...). -/
structure Sem (V U B T N : Type) where
  un : U → V → Res V
  bin : B → V → V → Res V
  ter : T → V → V → V → Res V
  nary : N → List V → Res V

/-- evaluation.rs:71-77 `StackProgram`. -/
structure SProg (V U B T N : Type) where
  size : Nat
  ops : List (SOp V U B T N)

/-- One round of the loop of `StackProgram::new` (evaluation.rs:88-122) on `current_height`.
`panic` is the `usize` underflow of `parameter_count - 1`; `undef` is `Err(MalformedStackProgram)`. -/
def SOp.height (cur : Nat) : SOp V U B T N → Res Nat
  | .push _ => .val (cur + 1)
  | .un _ => if cur = 0 then .undef else .val cur
  | .bin _ => if cur ≤ 1 then .undef else .val (cur - 1)
  | .ter _ => if cur ≤ 2 then .undef else .val (cur - 2)
  | .nary _ k => if cur < k then .undef else if k = 0 then .panic else .val (cur - (k - 1))

/-- The loop of `StackProgram::new`: final height and maximal height. -/
def heightLoop : List (SOp V U B T N) → Nat → Nat → Res (Nat × Nat)
  | [], cur, mx => .val (cur, mx)
  | op :: ops, cur, mx => do
      let cur' ← op.height cur
      heightLoop ops cur' (max cur' mx)

/-- evaluation.rs:84-132 `StackProgram::new`. -/
def SProg.new (ops : List (SOp V U B T N)) : Res (SProg V U B T N) := do
  let hm ← heightLoop ops 0 0
  if hm.1 ≠ 1 then .undef else .val ⟨hm.2, ops⟩

/-- evaluation.rs:147-160: the operand pushed for a referenced value.
`panic` is the failing `expect` for a reference that is not in the map. -/
def refOperand [DecidableEq R] (map : R → Option Nat) (this : Option R) (r : R) : Res (StackVal V) :=
  if some r = this then .val .this
  else match map r with
    | some i => .val (.ref i)
    | none => .panic

mutual
/-- evaluation.rs:140-199 `build_operations`. The operations vector is returned instead of being
passed as `&mut`. -/
def buildOps [DecidableEq R] (map : R → Option Nat) (this : Option R) :
    FTree V U B T N R → Res (List (SOp V U B T N))
  | .const v => .val [.push (.const v)]
  | .ref r => do let x ← refOperand map this r; .val [.push x]
  | .un f a => do let xs ← buildOps map this a; .val (xs ++ [.un f])
  | .bin f a b => do
      let xs ← buildOps map this a
      let ys ← buildOps map this b
      .val (xs ++ ys ++ [.bin f])
  | .ter f a b c => do
      let xs ← buildOps map this a
      let ys ← buildOps map this b
      let zs ← buildOps map this c
      .val (xs ++ ys ++ zs ++ [.ter f])
  | .nary f as => do
      let xs ← buildOpsList map this as
      .val (xs ++ [.nary f as.length])
/-- evaluation.rs:192-194: the loop over the parameters of an n-ary function. -/
def buildOpsList [DecidableEq R] (map : R → Option Nat) (this : Option R) :
    List (FTree V U B T N R) → Res (List (SOp V U B T N))
  | [] => .val []
  | a :: as => do
      let xs ← buildOps map this a
      let ys ← buildOpsList map this as
      .val (xs ++ ys)
end

/-- evaluation.rs:135-204 `from_function_tree`; the `expect` turns a malformed program into a panic. -/
def SProg.fromTree [DecidableEq R] (map : R → Option Nat) (this : Option R)
    (t : FTree V U B T N R) : Res (SProg V U B T N) :=
  match buildOps map this t with
  | .val ops =>
      match SProg.new ops with
      | .val p => .val p
      | _ => .panic
  | _ => .panic

/-- `n` times `stack.pop().expect(..)`: the popped values (latest first) and the rest
(evaluation.rs:255-262). The top of the stack is the head of the list. -/
def popN {A : Type} : Nat → List A → Res (List A × List A)
  | 0, st => .val ([], st)
  | _ + 1, [] => .panic
  | n + 1, x :: st => do
      let r ← popN n st
      .val (x :: r.1, r.2)

/-- One round of the loop of `evaluate` (evaluation.rs:215-268). -/
def stepOp (sem : Sem V U B T N) (refs : List V) (this : Option V) (st : List V) :
    SOp V U B T N → Res (List V)
  | .push (.const v) => .val (v :: st)
  | .push (.ref i) => match refs[i]? with
      | some v => .val (v :: st)
      | none => .panic
  | .push .this => match this with
      | some v => .val (v :: st)
      | none => .undef
  | .un f => match st with
      | x :: st => do let y ← sem.un f x; .val (y :: st)
      | _ => .panic
  | .bin f => match st with
      | y :: x :: st => do let z ← sem.bin f x y; .val (z :: st)
      | _ => .panic
  | .ter f => match st with
      | z :: y :: x :: st => do let w ← sem.ter f x y z; .val (w :: st)
      | _ => .panic
  | .nary f k => do
      let r ← popN k st
      let w ← sem.nary f r.1.reverse
      .val (w :: r.2)

/-- The loop of `evaluate`. -/
def runOps (sem : Sem V U B T N) (refs : List V) (this : Option V) :
    List (SOp V U B T N) → List V → Res (List V)
  | [], st => .val st
  | op :: ops, st => do
      let st' ← stepOp sem refs this st op
      runOps sem refs this ops st'

/-- evaluation.rs:208-275 `evaluate`. -/
def SProg.eval (sem : Sem V U B T N) (p : SProg V U B T N) (refs : List V) (this : Option V) : Res V :=
  do
    let st ← runOps sem refs this p.ops []
    match st with
    | x :: _ => .val x
    | [] => .panic

/-- evaluation.rs:283-285 `evaluate_data`. -/
def SProg.evalData (sem : Sem V U B T N) (p : SProg V U B T N) (refs : List V) : Res V :=
  p.eval sem refs none

/-- evaluation.rs:294-301 `evaluate_bool`; `toBool` is `to_boolean`. -/
def SProg.evalBool (sem : Sem V U B T N) (toBool : V → Option Bool) (p : SProg V U B T N)
    (refs : List V) (this : Option V) : Res Bool := do
  let r ← p.eval sem refs this
  Res.ofOption (toBool r)

/-- evaluation.rs:38-44, 62-68, 347-351 `rename_references`. -/
def SOp.rename (map : Nat → Option Nat) : SOp V U B T N → SOp V U B T N
  | .push (.ref i) => .push (.ref ((map i).getD i))
  | op => op

/-- evaluation.rs:347-351 `rename_references`. -/
def SProg.rename (map : Nat → Option Nat) (p : SProg V U B T N) : SProg V U B T N :=
  ⟨p.size, p.ops.map (SOp.rename map)⟩

mutual
/-- tree.rs:1027-1069 `references`. -/
def FTree.refs : FTree V U B T N R → List R
  | .const _ => []
  | .ref r => [r]
  | .un _ a => a.refs
  | .bin _ a b => a.refs ++ b.refs
  | .ter _ a b c => a.refs ++ b.refs ++ c.refs
  | .nary _ as => FTree.refsList as
/-- tree.rs:1060-1066: references of the parameters. -/
def FTree.refsList : List (FTree V U B T N R) → List R
  | [] => []
  | a :: as => a.refs ++ FTree.refsList as
end

/-! ### Specification: the recursive meaning of an expression -/

mutual
/-- Meaning of an expression: evaluate the parameters from left to right, then apply the function.
`env` gives the value of each variable, `none` standing for an undefined one. -/
def FTree.sem (S : Sem V U B T N) (env : R → Option V) : FTree V U B T N R → Res V
  | .const v => .val v
  | .ref r => Res.ofOption (env r)
  | .un f a => do S.un f (← a.sem S env)
  | .bin f a b => do
      let x ← a.sem S env
      let y ← b.sem S env
      S.bin f x y
  | .ter f a b c => do
      let x ← a.sem S env
      let y ← b.sem S env
      let z ← c.sem S env
      S.ter f x y z
  | .nary f as => do
      let xs ← FTree.semList S env as
      S.nary f xs
/-- Meaning of a list of expressions. -/
def FTree.semList (S : Sem V U B T N) (env : R → Option V) : List (FTree V U B T N R) → Res (List V)
  | [] => .val []
  | a :: as => do
      let x ← a.sem S env
      let xs ← FTree.semList S env as
      .val (x :: xs)
end

mutual
/-- Every n-ary function has at least one parameter. -/
def FTree.NaryOK : FTree V U B T N R → Prop
  | .const _ => True
  | .ref _ => True
  | .un _ a => a.NaryOK
  | .bin _ a b => a.NaryOK ∧ b.NaryOK
  | .ter _ a b c => a.NaryOK ∧ b.NaryOK ∧ c.NaryOK
  | .nary _ as => as ≠ [] ∧ FTree.NaryOKList as
/-- `NaryOK` for every element. -/
def FTree.NaryOKList : List (FTree V U B T N R) → Prop
  | [] => True
  | a :: as => a.NaryOK ∧ FTree.NaryOKList as
end

/-! ### Proofs -/

theorem runOps_append (S : Sem V U B T N) (refs : List V) (this : Option V) :
    ∀ (xs ys : List (SOp V U B T N)) (st : List V),
      runOps S refs this (xs ++ ys) st = runOps S refs this xs st >>= runOps S refs this ys
  | [], ys, st => rfl
  | op :: xs, ys, st => by
      simp only [List.cons_append, runOps, Res.bind_assoc]
      congr 1; funext st'
      exact runOps_append S refs this xs ys st'

theorem heightLoop_append : ∀ (xs ys : List (SOp V U B T N)) (cur mx : Nat),
    heightLoop (xs ++ ys) cur mx = heightLoop xs cur mx >>= fun p => heightLoop ys p.1 p.2
  | [], ys, cur, mx => rfl
  | op :: xs, ys, cur, mx => by
      simp only [List.cons_append, heightLoop, Res.bind_assoc]
      congr 1; funext c
      exact heightLoop_append xs ys c _

theorem popN_append {A : Type} : ∀ (xs st : List A), popN xs.length (xs ++ st) = .val (xs, st)
  | [], st => rfl
  | x :: xs, st => by simp [popN, popN_append xs st]

/-- The values of the referenced columns agree with the valuation `env`. -/
def Agrees [DecidableEq R] (map : R → Option Nat) (this : Option R) (vals : List V) (thisVal : Option V)
    (env : R → Option V) (rs : List R) : Prop :=
  ∀ r ∈ rs, if some r = this then env r = thisVal
    else ∃ (i : Nat) (v : V), map r = some i ∧ vals[i]? = some v ∧ env r = some v

theorem Agrees.mono [DecidableEq R] {map : R → Option Nat} {this : Option R} {vals : List V}
    {thisVal : Option V} {env : R → Option V} {rs rs' : List R}
    (h : Agrees map this vals thisVal env rs) (hs : ∀ r ∈ rs', r ∈ rs) :
    Agrees map this vals thisVal env rs' := fun r hr => h r (hs r hr)

mutual
theorem runOps_build [DecidableEq R] {S : Sem V U B T N} {map : R → Option Nat} {this : Option R}
    {vals : List V} {thisVal : Option V} {env : R → Option V} :
    ∀ (t : FTree V U B T N R), Agrees map this vals thisVal env t.refs →
      ∃ ops, buildOps map this t = .val ops ∧
        ∀ st, runOps S vals thisVal ops st = t.sem S env >>= fun v => .val (v :: st)
  | .const v, h => ⟨_, rfl, fun st => rfl⟩
  | .ref r, h => by
      have hr := h r (by simp [FTree.refs])
      unfold buildOps refOperand
      split at hr
      · rename_i ht
        rw [if_pos ht]
        refine ⟨_, rfl, fun st => ?_⟩
        simp only [runOps, stepOp, FTree.sem, hr]
        cases thisVal <;> rfl
      · rename_i ht
        obtain ⟨i, v, hm, hv, he⟩ := hr
        rw [if_neg ht, hm]
        refine ⟨_, rfl, fun st => ?_⟩
        simp [runOps, stepOp, FTree.sem, hv, he, Res.ofOption]
  | .un f a, h => by
      obtain ⟨xs, hx, hX⟩ := runOps_build (S := S) a (h.mono (by simp [FTree.refs]))
      refine ⟨xs ++ [.un f], by simp [buildOps, hx], fun st => ?_⟩
      rw [runOps_append, hX]
      simp only [FTree.sem, Res.bind_assoc]
      congr 1; funext x
      simp [runOps, stepOp, Res.bind_assoc]
  | .bin f a b, h => by
      obtain ⟨xs, hx, hX⟩ := runOps_build (S := S) a (h.mono (by simp +contextual [FTree.refs]))
      obtain ⟨ys, hy, hY⟩ := runOps_build (S := S) b (h.mono (by simp +contextual [FTree.refs]))
      refine ⟨xs ++ ys ++ [.bin f], by simp [buildOps, hx, hy], fun st => ?_⟩
      rw [runOps_append, runOps_append, hX]
      simp only [FTree.sem, Res.bind_assoc, Res.bind_val, hY]
      congr 1; funext x
      congr 1; funext y
      simp [runOps, stepOp, Res.bind_assoc]
  | .ter f a b c, h => by
      obtain ⟨xs, hx, hX⟩ := runOps_build (S := S) a (h.mono (by simp +contextual [FTree.refs]))
      obtain ⟨ys, hy, hY⟩ := runOps_build (S := S) b (h.mono (by simp +contextual [FTree.refs]))
      obtain ⟨zs, hz, hZ⟩ := runOps_build (S := S) c (h.mono (by simp +contextual [FTree.refs]))
      refine ⟨xs ++ ys ++ zs ++ [.ter f], by simp [buildOps, hx, hy, hz], fun st => ?_⟩
      rw [runOps_append, runOps_append, runOps_append, hX]
      simp only [FTree.sem, Res.bind_assoc, Res.bind_val, hY, hZ]
      congr 1; funext x
      congr 1; funext y
      congr 1; funext z
      simp [runOps, stepOp, Res.bind_assoc]
  | .nary f as, h => by
      obtain ⟨xs, hx, hX⟩ := runOps_buildList (S := S) as (h.mono (by simp [FTree.refs]))
      refine ⟨xs ++ [.nary f as.length], by simp [buildOps, hx], fun st => ?_⟩
      rw [runOps_append, hX]
      simp only [FTree.sem, Res.bind_assoc, Res.bind_val]
      cases hv : FTree.semList S env as with
      | undef => simp
      | panic => simp
      | val vs =>
          have hl := semList_length as hv
          have := popN_append vs.reverse st
          rw [List.length_reverse, hl] at this
          simp [runOps, stepOp, this, Res.bind_assoc]
theorem semList_length {S : Sem V U B T N} {env : R → Option V} :
    ∀ (as : List (FTree V U B T N R)) {vs : List V}, FTree.semList S env as = .val vs →
      vs.length = as.length
  | [], vs, h => by simp [FTree.semList] at h; subst h; rfl
  | a :: as, vs, h => by
      rw [FTree.semList] at h
      obtain ⟨x, hx, h⟩ := Res.bind_eq_val.mp h
      obtain ⟨xs, hxs, h⟩ := Res.bind_eq_val.mp h
      simp only [Res.val.injEq] at h; subst h
      simp [semList_length as hxs]
theorem runOps_buildList [DecidableEq R] {S : Sem V U B T N} {map : R → Option Nat} {this : Option R}
    {vals : List V} {thisVal : Option V} {env : R → Option V} :
    ∀ (as : List (FTree V U B T N R)), Agrees map this vals thisVal env (FTree.refsList as) →
      ∃ ops, buildOpsList map this as = .val ops ∧
        ∀ st, runOps S vals thisVal ops st =
          FTree.semList S env as >>= fun vs => .val (vs.reverse ++ st)
  | [], h => ⟨[], rfl, fun st => rfl⟩
  | a :: as, h => by
      obtain ⟨xs, hx, hX⟩ := runOps_build (S := S) a (h.mono (by simp +contextual [FTree.refsList]))
      obtain ⟨ys, hy, hY⟩ := runOps_buildList (S := S) as (h.mono (by simp +contextual [FTree.refsList]))
      refine ⟨xs ++ ys, by simp [buildOpsList, hx, hy], fun st => ?_⟩
      rw [runOps_append, hX]
      simp only [FTree.semList, Res.bind_assoc, Res.bind_val, hY]
      congr 1; funext x
      congr 1; funext vs
      simp
end

mutual
theorem height_build [DecidableEq R] {map : R → Option Nat} {this : Option R} :
    ∀ (t : FTree V U B T N R) {ops : List (SOp V U B T N)}, t.NaryOK → buildOps map this t = .val ops →
      ∀ cur mx, ∃ mx', heightLoop ops cur mx = .val (cur + 1, mx')
  | .const v, ops, hn, h, cur, mx => by
      simp only [buildOps, Res.val.injEq] at h; subst h
      exact ⟨_, rfl⟩
  | .ref r, ops, hn, h, cur, mx => by
      rw [buildOps] at h
      obtain ⟨x, hx, h⟩ := Res.bind_eq_val.mp h
      simp only [Res.val.injEq] at h; subst h
      exact ⟨_, rfl⟩
  | .un f a, ops, hn, h, cur, mx => by
      rw [buildOps] at h
      obtain ⟨xs, hx, h⟩ := Res.bind_eq_val.mp h
      simp only [Res.val.injEq] at h; subst h
      obtain ⟨m, hm⟩ := height_build a hn hx cur mx
      rw [heightLoop_append, hm]
      simp [heightLoop, SOp.height]
  | .bin f a b, ops, hn, h, cur, mx => by
      rw [buildOps] at h
      obtain ⟨xs, hx, h⟩ := Res.bind_eq_val.mp h
      obtain ⟨ys, hy, h⟩ := Res.bind_eq_val.mp h
      simp only [Res.val.injEq] at h; subst h
      obtain ⟨m, hm⟩ := height_build a hn.1 hx cur mx
      obtain ⟨m', hm'⟩ := height_build b hn.2 hy (cur + 1) m
      simp [heightLoop_append, hm, hm', heightLoop, SOp.height]
  | .ter f a b c, ops, hn, h, cur, mx => by
      rw [buildOps] at h
      obtain ⟨xs, hx, h⟩ := Res.bind_eq_val.mp h
      obtain ⟨ys, hy, h⟩ := Res.bind_eq_val.mp h
      obtain ⟨zs, hz, h⟩ := Res.bind_eq_val.mp h
      simp only [Res.val.injEq] at h; subst h
      obtain ⟨m, hm⟩ := height_build a hn.1 hx cur mx
      obtain ⟨m', hm'⟩ := height_build b hn.2.1 hy (cur + 1) m
      obtain ⟨m'', hm''⟩ := height_build c hn.2.2 hz (cur + 1 + 1) m'
      simp [heightLoop_append, hm, hm', hm'', heightLoop, SOp.height]
  | .nary f as, ops, hn, h, cur, mx => by
      rw [buildOps] at h
      obtain ⟨xs, hx, h⟩ := Res.bind_eq_val.mp h
      simp only [Res.val.injEq] at h; subst h
      obtain ⟨m, hm⟩ := height_buildList as hn.2 hx cur mx
      have hl : 0 < as.length := List.length_pos_iff.mpr hn.1
      rw [heightLoop_append, hm]
      simp only [Res.bind_val, heightLoop, SOp.height]
      rw [if_neg (by omega), if_neg (by omega)]
      have e : cur + as.length - (as.length - 1) = cur + 1 := by omega
      exact ⟨_, by rw [e]; rfl⟩
theorem height_buildList [DecidableEq R] {map : R → Option Nat} {this : Option R} :
    ∀ (as : List (FTree V U B T N R)) {ops : List (SOp V U B T N)}, FTree.NaryOKList as →
      buildOpsList map this as = .val ops →
      ∀ cur mx, ∃ mx', heightLoop ops cur mx = .val (cur + as.length, mx')
  | [], ops, hn, h, cur, mx => by
      simp only [buildOpsList, Res.val.injEq] at h; subst h
      exact ⟨_, rfl⟩
  | a :: as, ops, hn, h, cur, mx => by
      rw [buildOpsList] at h
      obtain ⟨xs, hx, h⟩ := Res.bind_eq_val.mp h
      obtain ⟨ys, hy, h⟩ := Res.bind_eq_val.mp h
      simp only [Res.val.injEq] at h; subst h
      obtain ⟨m, hm⟩ := height_build a hn.1 hx cur mx
      obtain ⟨m', hm'⟩ := height_buildList as hn.2 hy (cur + 1) m
      refine ⟨m', ?_⟩
      rw [heightLoop_append, hm]
      simp only [Res.bind_val, hm', List.length_cons]
      congr 2; omega
end

/-- **C14.** Compiling an expression succeeds, and running the program gives exactly the recursive
meaning of the expression — the same value, undefined exactly when the expression is undefined, and
panicking only if one of the applied functions panics. -/
theorem eval_fromTree [DecidableEq R] (S : Sem V U B T N) (t : FTree V U B T N R)
    (map : R → Option Nat) (this : Option R) (vals : List V) (thisVal : Option V) (env : R → Option V)
    (hn : t.NaryOK) (h : Agrees map this vals thisVal env t.refs) :
    ∃ p, SProg.fromTree map this t = .val p ∧ p.eval S vals thisVal = t.sem S env := by
  obtain ⟨ops, hb, hr⟩ := runOps_build (S := S) t h
  obtain ⟨m, hm⟩ := height_build t hn hb 0 0
  refine ⟨⟨m, ops⟩, by simp [SProg.fromTree, hb, SProg.new, hm], ?_⟩
  simp only [SProg.eval, hr, Res.bind_assoc, Res.bind_val]
  cases t.sem S env <;> rfl

/-- An n-ary node without parameters makes `StackProgram::new` panic (debug builds: the subtraction
`parameter_count - 1` underflows). -/
theorem fromTree_empty_nary [DecidableEq R] (f : N) (map : R → Option Nat) (this : Option R) :
    SProg.fromTree map this (.nary f [] : FTree V U B T N R) = .panic := rfl

theorem stepOp_height (S : Sem V U B T N) (refs : List V) (this : Option V) {op : SOp V U B T N}
    {st st' : List V} {c : Nat} (h : stepOp S refs this st op = .val st')
    (hc : op.height st.length = .val c) : st'.length = c := by
  have hpop : ∀ (k : Nat) (st : List V) (r : List V × List V), popN k st = .val r →
      r.2.length + k = st.length := by
    intro k
    induction k with
    | zero => intro st r h; simp only [popN, Res.val.injEq] at h; subst h; rfl
    | succ k ih =>
        intro st r h
        cases st with
        | nil => simp [popN] at h
        | cons x st =>
            rw [popN] at h
            obtain ⟨r', hr', h⟩ := Res.bind_eq_val.mp h
            simp only [Res.val.injEq] at h; subst h
            have := ih st r' hr'
            simp only [List.length_cons]; omega
  cases op with
  | push v =>
      simp only [SOp.height, Res.val.injEq] at hc; subst hc
      cases v <;> simp only [stepOp] at h
      · simp only [Res.val.injEq] at h; subst h; rfl
      · split at h <;> simp at h; subst h; rfl
      · split at h <;> simp at h; subst h; rfl
  | un f =>
      simp only [stepOp] at h
      split at h
      · obtain ⟨y, hy, h⟩ := Res.bind_eq_val.mp h
        simp only [Res.val.injEq] at h; subst h
        simp [SOp.height] at hc
        simp; omega
      · simp at h
  | bin f =>
      simp only [stepOp] at h
      split at h
      · obtain ⟨y, hy, h⟩ := Res.bind_eq_val.mp h
        simp only [Res.val.injEq] at h; subst h
        simp [SOp.height] at hc
        simp; omega
      · simp at h
  | ter f =>
      simp only [stepOp] at h
      split at h
      · obtain ⟨y, hy, h⟩ := Res.bind_eq_val.mp h
        simp only [Res.val.injEq] at h; subst h
        simp [SOp.height] at hc
        simp; omega
      · simp at h
  | nary f k =>
      simp only [stepOp] at h
      obtain ⟨r, hr, h⟩ := Res.bind_eq_val.mp h
      obtain ⟨y, hy, h⟩ := Res.bind_eq_val.mp h
      simp only [Res.val.injEq] at h; subst h
      have := hpop k st r hr
      simp only [SOp.height] at hc
      split at hc
      · simp at hc
      · split at hc
        · simp at hc
        · simp only [Res.val.injEq] at hc
          simp only [List.length_cons]; omega

theorem heightLoop_max : ∀ (ops : List (SOp V U B T N)) (cur mx : Nat) {p : Nat × Nat},
    heightLoop ops cur mx = .val p → mx ≤ p.2
  | [], cur, mx, p, h => by simp only [heightLoop, Res.val.injEq] at h; subst h; exact Nat.le_refl _
  | op :: ops, cur, mx, p, h => by
      rw [heightLoop] at h
      obtain ⟨c, hc, h⟩ := Res.bind_eq_val.mp h
      exact Nat.le_trans (Nat.le_max_right _ _) (heightLoop_max ops c _ h)

/-- While a program accepted by `StackProgram::new` runs, the stack never grows beyond the capacity
reserved for it (evaluation.rs:213), so running it does not allocate again. -/
theorem eval_within_size (S : Sem V U B T N) {ops : List (SOp V U B T N)} {p : SProg V U B T N}
    (hp : SProg.new ops = .val p) (refs : List V) (this : Option V)
    {xs ys : List (SOp V U B T N)} (he : ops = xs ++ ys) {st : List V}
    (hs : runOps S refs this xs [] = .val st) : st.length ≤ p.size := by
  have key : ∀ (xs : List (SOp V U B T N)) (st0 st : List V) (mx : Nat) (q : Nat × Nat),
      st0.length ≤ mx → runOps S refs this xs st0 = .val st →
      heightLoop xs st0.length mx = .val q → q.1 = st.length ∧ st.length ≤ q.2 := by
    intro xs
    induction xs with
    | nil =>
        intro st0 st mx q hm h hq
        simp only [runOps, heightLoop, Res.val.injEq] at h hq
        subst h hq
        exact ⟨rfl, hm⟩
    | cons op xs ih =>
        intro st0 st mx q hm h hq
        rw [runOps] at h
        rw [heightLoop] at hq
        obtain ⟨s1, h1, h⟩ := Res.bind_eq_val.mp h
        obtain ⟨c, hc, hq⟩ := Res.bind_eq_val.mp hq
        have := stepOp_height S refs this h1 hc
        subst this
        exact ih s1 st _ q (Nat.le_max_left _ _) h hq
  unfold SProg.new at hp
  obtain ⟨q, hq, hp⟩ := Res.bind_eq_val.mp hp
  split at hp
  · simp at hp
  · simp only [Res.val.injEq] at hp
    subst hp he
    rw [heightLoop_append] at hq
    obtain ⟨q1, hq1, hq2⟩ := Res.bind_eq_val.mp hq
    have h1 := key xs [] st 0 q1 (Nat.le_refl _) hs hq1
    exact Nat.le_trans h1.2 (heightLoop_max ys _ _ hq2)

/-- A program accepted by `StackProgram::new` never pops from an empty stack: it only panics if a
reference is out of range or an applied function panics. -/
theorem runOps_no_underflow (S : Sem V U B T N) (refs : List V) (this : Option V)
    (hun : ∀ f x, S.un f x ≠ .panic) (hbin : ∀ f x y, S.bin f x y ≠ .panic)
    (hter : ∀ f x y z, S.ter f x y z ≠ .panic) (hnary : ∀ f xs, S.nary f xs ≠ .panic) :
    ∀ (ops : List (SOp V U B T N)) (st : List V) (mx : Nat) (q : Nat × Nat),
      heightLoop ops st.length mx = .val q →
      (∀ i, SOp.push (.ref i) ∈ ops → i < refs.length) → runOps S refs this ops st ≠ .panic
  | [], st, mx, q, h, hr => by simp [runOps]
  | op :: ops, st, mx, q, h, hr => by
      rw [heightLoop] at h
      obtain ⟨c, hc, h⟩ := Res.bind_eq_val.mp h
      rw [runOps]
      have hpop : ∀ (k : Nat) (st : List V), k ≤ st.length → popN k st ≠ .panic := by
        intro k
        induction k with
        | zero => intro st _; simp [popN]
        | succ k ih =>
            intro st hk
            cases st with
            | nil => simp at hk
            | cons x st =>
                rw [popN]
                have := ih st (by simpa using hk)
                cases hp : popN k st <;> simp_all
      cases hs : stepOp S refs this st op with
      | val st' =>
          have := stepOp_height S refs this hs hc
          subst this
          exact runOps_no_underflow S refs this hun hbin hter hnary ops st' _ q h
            (fun i hi => hr i (List.mem_cons_of_mem _ hi))
      | undef => simp
      | panic =>
          exfalso
          cases op with
          | push v =>
              cases v <;> simp only [stepOp] at hs
              · simp at hs
              · rename_i i
                have := hr i (by simp)
                rw [List.getElem?_eq_getElem this] at hs
                simp at hs
              · split at hs <;> simp at hs
          | un f =>
              simp only [SOp.height] at hc
              match st, hs, hc with
              | [], hs, hc => simp at hc
              | x :: st, hs, hc =>
                  simp only [stepOp] at hs
                  have := hun f x
                  cases hq : S.un f x <;> simp_all
          | bin f =>
              simp only [SOp.height] at hc
              match st, hs, hc with
              | [], hs, hc => simp at hc
              | [x], hs, hc => simp at hc
              | y :: x :: st, hs, hc =>
                  simp only [stepOp] at hs
                  have := hbin f x y
                  cases hq : S.bin f x y <;> simp_all
          | ter f =>
              simp only [SOp.height] at hc
              match st, hs, hc with
              | [], hs, hc => simp at hc
              | [x], hs, hc => simp at hc
              | [y, x], hs, hc => simp at hc
              | z :: y :: x :: st, hs, hc =>
                  simp only [stepOp] at hs
                  have := hter f x y z
                  cases hq : S.ter f x y z <;> simp_all
          | nary f k =>
              simp only [SOp.height] at hc
              have hk : k ≤ st.length := by
                by_cases hlt : st.length < k
                · simp [hlt] at hc
                · omega
              simp only [stepOp] at hs
              have := hpop k st hk
              cases hp : popN k st with
              | panic => exact this hp
              | undef => simp [hp] at hs
              | val r =>
                  have := hnary f r.1.reverse
                  cases hq : S.nary f r.1.reverse <;> simp_all

/-- Renaming the references of a program (`rename_references`) is the same as reading the
values from the renamed positions. -/
theorem eval_rename (S : Sem V U B T N) (p : SProg V U B T N) (map : Nat → Option Nat)
    (refs refs' : List V) (this : Option V)
    (h : ∀ i, SOp.push (.ref i) ∈ p.ops → refs'[(map i).getD i]? = refs[i]?) :
    (p.rename map).eval S refs' this = p.eval S refs this := by
  have key : ∀ (ops : List (SOp V U B T N)) (st : List V),
      (∀ i, SOp.push (.ref i) ∈ ops → refs'[(map i).getD i]? = refs[i]?) →
      runOps S refs' this (ops.map (SOp.rename map)) st = runOps S refs this ops st := by
    intro ops
    induction ops with
    | nil => intro st _; rfl
    | cons op ops ih =>
        intro st h
        simp only [List.map_cons, runOps]
        have hs : stepOp S refs' this st (SOp.rename map op) = stepOp S refs this st op := by
          cases op with
          | push v =>
              cases v with
              | ref i => simp only [SOp.rename, stepOp, h i (by simp)]
              | const v => rfl
              | this => rfl
          | _ => rfl
        rw [hs]
        congr 1; funext st'
        exact ih st' (fun i hi => h i (List.mem_cons_of_mem _ hi))
  simp only [SProg.eval, SProg.rename, key p.ops [] h]

/-! ### Special cases (tree.rs:133-175) -/

/-- tree.rs:102-112 `SpecialCaseFunction`. -/
inductive SpecialFun (V R : Type) where
  | normal
  | constant (v : Option V)
  | reference (r : R)

/-- tree.rs:133-147 `special_function`. -/
def FTree.specialFun [DecidableEq R] (S : Sem V U B T N) (t : FTree V U B T N R) : Res (SpecialFun V R) :=
  if t.refs.isEmpty then
    match SProg.fromTree (fun _ => none) none t with
    | .val p => match p.evalData S [] with
        | .val v => .val (.constant (some v))
        | .undef => .val (.constant none)
        | .panic => .panic
    | _ => .panic
  else match t with
    | .ref r => .val (.reference r)
    | _ => .val .normal

/-- The special cases of `special_function` mean the same as the expression. -/
theorem specialFun_spec [DecidableEq R] (S : Sem V U B T N) (t : FTree V U B T N R) (hn : t.NaryOK)
    (env : R → Option V) :
    (∀ v, t.specialFun S = .val (.constant v) → t.sem S env = Res.ofOption v) ∧
      (∀ r, t.specialFun S = .val (.reference r) → t.sem S env = Res.ofOption (env r)) := by
  unfold FTree.specialFun
  by_cases he : t.refs.isEmpty
  · rw [if_pos he]
    have hnil : t.refs = [] := by simpa using he
    obtain ⟨p, hp, hv⟩ := eval_fromTree S t (fun _ => none) none [] none env hn
      (by rw [hnil]; intro r hr; simp at hr)
    rw [hp]
    have hd : p.evalData S [] = t.sem S env := hv
    simp only [hd]
    cases t.sem S env <;> simp +contextual [Res.ofOption, eq_comm]
  · rw [if_neg he]
    cases t <;> simp [FTree.sem]

end

/-! ### Example -/

/-- A small function library: negation, subtraction, three-way clamp, n-ary sum; division by zero is
undefined. -/
def exSem : Sem Int Unit Bool Unit Unit where
  un := fun _ x => .val (-x)
  bin := fun d x y => if d then (if y = 0 then .undef else .val (x / y)) else .val (x - y)
  ter := fun _ x y z => .val (max x (min y z))
  nary := fun _ xs => .val xs.sum

/-- `sum(?a - 2, -(?b), 7)`. -/
def exTree : FTree Int Unit Bool Unit Unit String :=
  .nary () [.bin false (.ref "a") (.const 2), .un () (.ref "b"), .const 7]

/-- The hypotheses of `eval_fromTree` are met with `?a` in column 1 and `?b` the filtered column. -/
example : exTree.NaryOK ∧
    Agrees (fun r => if r = "a" then some 1 else none) (some "b") [(10 : Int), 20] (some 5)
      (fun r => if r = "a" then some 20 else some 5) exTree.refs := by
  refine ⟨by simp [exTree, FTree.NaryOK, FTree.NaryOKList], ?_⟩
  intro r hr
  simp [exTree, FTree.refs, FTree.refsList] at hr
  rcases hr with rfl | rfl
  · simp
  · simp

example : (SProg.fromTree (fun r => if r = "a" then some 1 else none) (some "b") exTree >>=
    fun p => p.eval exSem [10, 20] (some 5)) = .val 20 := by decide

end Verif
