/-!
# Model of the expression library (`expr/src/lib.rs`, `expr/src/ops.rs`, `circuits/src/expr.rs`)

A node of an expression is allocated in the builder's arena and referred to by its address, so one node
can be part of many expressions; the model keeps the address in the node. The arena is the list of its
nodes, the address of a node its index.
-/
namespace Mozak.Expr

/-- `BinOp` (expr/src/lib.rs:238-243). -/
inductive BinOp | add | sub | mul
  deriving DecidableEq, Repr

/-- `UnaOp` (expr/src/lib.rs:246-249). -/
inductive UnaOp | neg
  deriving DecidableEq, Repr

/-- `ExprTree` with `CompoundExpr` (expr/src/lib.rs:251-281); `addr` is the node's address. -/
inductive Tree (V : Type)
  | bin (addr : Nat) (op : BinOp) (left right : Tree V)
  | una (addr : Nat) (op : UnaOp) (expr : Tree V)
  | lit (addr : Nat) (value : V)
  | const (addr : Nat) (value : Int)
  deriving DecidableEq, Repr

/-- `expr_tree as *const ExprTree` (expr/src/lib.rs:391-392). -/
def Tree.addr {V : Type} : Tree V → Nat
  | .bin a _ _ _ => a
  | .una a _ _ => a
  | .lit a _ => a
  | .const a _ => a

/-- `Expr` (expr/src/lib.rs:68-77); the reference to the builder is not represented. -/
inductive Expr (V : Type)
  | basic (value : Int)
  | compound (expr : Tree V)
  deriving DecidableEq, Repr

/-! ### Building expressions -/

variable {V : Type}

/-- `ExprBuilder` (expr/src/lib.rs:136-139): what has been allocated, in order. -/
abbrev Builder (V : Type) := List (Tree V)

/-- `ExprBuilder::intern` (expr/src/lib.rs:144-146). -/
def intern (mk : Nat → Tree V) (b : Builder V) : Tree V × Builder V :=
  (mk b.length, b ++ [mk b.length])

/-- `ExprBuilder::ensure_interned` and `constant_tree` (expr/src/lib.rs:148-153, 181-183). -/
def ensureInterned (e : Expr V) (b : Builder V) : Tree V × Builder V :=
  match e with
  | .compound t => (t, b)
  | .basic v => intern (fun a => .const a v) b

/-- What an `i64` operation gives for the exact result `x`: with overflow checks a panic (`none`) if it
does not fit, without them the result modulo 2^64. -/
def i64Result (overflowChecks : Bool) (x : Int) : Option Int :=
  if -(2 ^ 63) ≤ x ∧ x < 2 ^ 63 then some x
  else if overflowChecks then none
  else some (Int.bmod x (2 ^ 64))

/-- `PureEvaluator::bin_op` on `i64` (expr/src/lib.rs:323-329). -/
def i64Bin (oc : Bool) : BinOp → Int → Int → Option Int
  | .add, l, r => i64Result oc (l + r)
  | .sub, l, r => i64Result oc (l - r)
  | .mul, l, r => i64Result oc (l * r)

/-- `PureEvaluator::una_op` on `i64` (expr/src/lib.rs:331-335). -/
def i64Una (oc : Bool) : UnaOp → Int → Option Int
  | .neg, x => i64Result oc (-x)

/-- `Expr::bin_op` (expr/src/lib.rs:90-101): two plain integers are folded, otherwise a node is
allocated. -/
def Expr.binOp (oc : Bool) (op : BinOp) (l r : Expr V) (b : Builder V) : Option (Expr V × Builder V) :=
  match l, r with
  | .basic x, .basic y => (i64Bin oc op x y).map fun v => (.basic v, b)
  | l, r =>
    let lt := ensureInterned l b
    let rt := ensureInterned r lt.2
    let t := intern (fun a => .bin a op lt.1 rt.1) rt.2
    some (.compound t.1, t.2)

/-- `Expr::una_op` (expr/src/lib.rs:103-108). -/
def Expr.unaOp (oc : Bool) (op : UnaOp) (e : Expr V) (b : Builder V) : Option (Expr V × Builder V) :=
  match e with
  | .basic x => (i64Una oc op x).map fun v => (.basic v, b)
  | .compound t =>
    let t' := intern (fun a => .una a op t) b
    some (.compound t'.1, t'.2)

/-- `Expr::is_binary` (expr/src/lib.rs:112-116): `self * (1 - self)`. -/
def Expr.isBinary (oc : Bool) (e : Expr V) (b : Builder V) : Option (Expr V × Builder V) :=
  (Expr.binOp oc .sub (.basic 1) e b).bind fun r => Expr.binOp oc .mul e r.1 r.2

/-- `Expr::reduce_with_powers` (expr/src/lib.rs:118-128), on the terms in reverse order. -/
def reduceRev (oc : Bool) (base : Int) : List (Expr V) → Expr V → Builder V → Option (Expr V × Builder V)
  | [], acc, b => some (acc, b)
  | t :: ts, acc, b =>
    (Expr.binOp oc .mul acc (.basic base) b).bind fun r =>
      (Expr.binOp oc .add r.1 t r.2).bind fun r => reduceRev oc base ts r.1 r.2

/-- `Expr::reduce_with_powers` (expr/src/lib.rs:118-128). -/
def Expr.reduceWithPowers (oc : Bool) (terms : List (Expr V)) (base : Int) (b : Builder V) :
    Option (Expr V × Builder V) :=
  reduceRev oc base terms.reverse (.basic 0) b

/-- `Sum` (expr/src/ops.rs:86-99), from an accumulator. -/
def sumFrom (oc : Bool) : List (Expr V) → Expr V → Builder V → Option (Expr V × Builder V)
  | [], acc, b => some (acc, b)
  | t :: ts, acc, b => (Expr.binOp oc .add acc t b).bind fun r => sumFrom oc ts r.1 r.2

/-- A statement of a program that builds expressions; operands are results of earlier statements (an
`Expr` is `Copy`, so a result can be used any number of times). -/
inductive Instr (V : Type)
  /-- `builder.lit(v)` (expr/src/lib.rs:193) -/
  | lit (v : V)
  /-- `builder.constant(i)` (expr/src/lib.rs:190) -/
  | constant (i : Int)
  /-- `Expr::from(i)` (expr/src/lib.rs:79-81) -/
  | num (i : Int)
  /-- `a + b`, `a - b`, `a * b` and the assignments (expr/src/ops.rs:9-48, 64-84) -/
  | bin (op : BinOp) (a b : Nat)
  /-- `-a` (expr/src/ops.rs:50-62) -/
  | neg (a : Nat)
  | isBinary (a : Nat)
  | reduceWithPowers (as : List Nat) (base : Int)
  | sum (as : List Nat)
  deriving DecidableEq, Repr

/-- Run one statement; `es` are the results so far. -/
def Instr.run (oc : Bool) (es : List (Expr V)) (b : Builder V) : Instr V → Option (Expr V × Builder V)
  | .lit v => let t := intern (fun a => .lit a v) b; some (.compound t.1, t.2)
  | .constant i => let t := intern (fun a => .const a i) b; some (.compound t.1, t.2)
  | .num i => some (.basic i, b)
  | .bin op x y => do Expr.binOp oc op (← es[x]?) (← es[y]?) b
  | .neg x => do Expr.unaOp oc .neg (← es[x]?) b
  | .isBinary x => do Expr.isBinary oc (← es[x]?) b
  | .reduceWithPowers xs base => do Expr.reduceWithPowers oc (← xs.mapM (es[·]?)) base b
  | .sum xs => do sumFrom oc (← xs.mapM (es[·]?)) (.basic 0) b

/-- Run a program from the results so far. -/
def runFrom (oc : Bool) : List (Instr V) → List (Expr V) → Builder V → Option (List (Expr V) × Builder V)
  | [], es, b => some (es, b)
  | i :: is, es, b => (i.run oc es b).bind fun r => runFrom oc is (es ++ [r.1]) r.2

/-! ### Evaluators -/

/-- `Evaluator` (expr/src/lib.rs:284-312): the three operations, with the evaluator's own state. -/
structure Evaluator (σ V : Type) where
  binOp : BinOp → V → V → σ → V × σ
  unaOp : UnaOp → V → σ → V × σ
  constant : Int → σ → V × σ

variable {σ : Type}

/-- The default `compound_expr` and `expr_tree` (expr/src/lib.rs:290-305). -/
def Evaluator.tree (E : Evaluator σ V) : Tree V → σ → V × σ
  | .bin _ op l r, s =>
    let x := E.tree l s
    let y := E.tree r x.2
    E.binOp op x.1 y.1 y.2
  | .una _ op e, s =>
    let x := E.tree e s
    E.unaOp op x.1 x.2
  | .lit _ v, s => (v, s)
  | .const _ i, s => E.constant i s

/-- `eval` (expr/src/lib.rs:306-311). -/
def Evaluator.eval (E : Evaluator σ V) : Expr V → σ → V × σ
  | .basic i, s => E.constant i s
  | .compound t, s => E.tree t s

/-- `Cached` (expr/src/lib.rs:344-349); the hash maps are association lists. -/
structure Cache (σ V : Type) where
  consts : List (Int × V)
  values : List (Nat × V)
  inner : σ

/-- `Cached::from` (expr/src/lib.rs:351-363). -/
def Cache.new (s : σ) : Cache σ V := ⟨[], [], s⟩

/-- `Cached::constant` (expr/src/lib.rs:377-382). -/
def Cache.constant (E : Evaluator σ V) (k : Int) (st : Cache σ V) : V × Cache σ V :=
  match st.consts.lookup k with
  | some v => (v, st)
  | none =>
    let r := E.constant k st.inner
    (r.1, { st with consts := (k, r.1) :: st.consts, inner := r.2 })

/-- The insertion in `Cached::compound_expr` (expr/src/lib.rs:394-399). -/
def Cache.store (a : Nat) (r : V × Cache σ V) : V × Cache σ V :=
  (r.1, { r.2 with values := (a, r.1) :: r.2.values })

/-- `Cached::compound_expr` with the default `expr_tree` (expr/src/lib.rs:366-400). -/
def Cache.tree (E : Evaluator σ V) : Tree V → Cache σ V → V × Cache σ V
  | .bin a op l r, st =>
    match st.values.lookup a with
    | some v => (v, st)
    | none =>
      let x := Cache.tree E l st
      let y := Cache.tree E r x.2
      let z := E.binOp op x.1 y.1 y.2.inner
      Cache.store a (z.1, { y.2 with inner := z.2 })
  | .una a op e, st =>
    match st.values.lookup a with
    | some v => (v, st)
    | none =>
      let x := Cache.tree E e st
      let z := E.unaOp op x.1 x.2.inner
      Cache.store a (z.1, { x.2 with inner := z.2 })
  | .lit a v, st =>
    match st.values.lookup a with
    | some v => (v, st)
    | none => Cache.store a (v, st)
  | .const a i, st =>
    match st.values.lookup a with
    | some v => (v, st)
    | none => Cache.store a (Cache.constant E i st)

/-- `eval` of the cached evaluator (expr/src/lib.rs:306-311). -/
def Cache.eval (E : Evaluator σ V) : Expr V → Cache σ V → V × Cache σ V
  | .basic i, st => Cache.constant E i st
  | .compound t, st => Cache.tree E t st

/-- A caller who evaluates several expressions with one cached evaluator. -/
def Cache.evalAll (E : Evaluator σ V) : List (Expr V) → Cache σ V → List V × Cache σ V
  | [], st => ([], st)
  | e :: es, st =>
    let r := Cache.eval E e st
    let rs := Cache.evalAll E es r.2
    (r.1 :: rs.1, rs.2)

/-- `PureEvaluator` (expr/src/lib.rs:315-338) over a type with the operations `bin`, `una` and the
conversion `c`; it has no state. -/
def pure (bin : BinOp → V → V → V) (una : UnaOp → V → V) (c : Int → V) : Evaluator Unit V where
  binOp op l r s := (bin op l r, s)
  unaOp op e s := (una op e, s)
  constant i s := (c i, s)

/-- `Counting` (expr/src/lib.rs:403-441) around an evaluator. -/
def counting (E : Evaluator σ V) : Evaluator (Nat × σ) V where
  binOp op l r s := let x := E.binOp op l r s.2; (x.1, s.1 + 1, x.2)
  unaOp op e s := let x := E.unaOp op e s.2; (x.1, s.1 + 1, x.2)
  constant i s := let x := E.constant i s.2; (x.1, s.1 + 1, x.2)

/-! ### Constraints -/

/-- `ConstraintType` (circuits/src/expr.rs:91-98). -/
inductive ConstraintType | firstRow | always | transition | lastRow
  deriving DecidableEq, Repr

/-- `build_packed` (circuits/src/expr.rs:167-190): one cached evaluator for all constraints; what the
consumer is handed, in order. -/
def buildPacked (E : Evaluator σ V) (s : σ) (cs : List (ConstraintType × Expr V)) :
    List (ConstraintType × V) :=
  (cs.map (·.1)).zip (Cache.evalAll E (cs.map (·.2)) (Cache.new s)).1

/-- `build_ext` (circuits/src/expr.rs:145-165): a new cached evaluator around the circuit builder (the
state `s`) for each constraint; what the consumer is handed, and the circuit builder afterwards.
`consume` is what the consumer adds to the circuit. -/
def buildExt (E : Evaluator σ V) (consume : ConstraintType → V → σ → σ) :
    List (ConstraintType × Expr V) → σ → List (ConstraintType × V) × σ
  | [], s => ([], s)
  | (ty, e) :: cs, s =>
    let r := Cache.eval E e (Cache.new s)
    let rs := buildExt E consume cs (consume ty r.1 r.2.inner)
    ((ty, r.1) :: rs.1, rs.2)

end Mozak.Expr
