import Verif.Model.Manips
/-
  Model of expressions built with `operator|` and the variadic `concatenate` (scicpp/core/manips.hpp:27-145)
  from named and temporary containers of one element type: overload resolution, results, and what happens to
  the named containers.
-/
namespace SciCpp
universe u

/-- An expression of concatenations.  `named x`: an lvalue, const or not; `moved x`: `std::move(x)`;
`temp c l`: a temporary; `cat`: `a | b` (scicpp/core/manips.hpp:126-136), the flag says which operand the compiler evaluates first
(indeterminately sequenced). -/
inductive CExpr (α : Type u) where
  | named (x : ℕ)
  | moved (x : ℕ)
  | temp (c : Cont) (l : List α)
  | cat (leftFirst : Bool) (a b : CExpr α)

/-- A named container. -/
structure CObj (α : Type u) where
  cont : Cont
  data : List α

/-- The named containers. -/
abbrev CEnv (α : Type u) := ℕ → CObj α

/-- What an operand of a call refers to: a named object (`rv`: bound as an rvalue) or a temporary. -/
inductive COp (α : Type u) where
  | obj (x : ℕ) (rv : Bool)
  | tmp (c : Cont) (l : List α)

variable {α : Type u}

/-- The overloads of `concatenate` with two parameters visible in `operator|`. -/
inductive COverload where
  /-- `(const std::array<T1,N1>&, const std::array<T2,N2>&)` -/
  | arrays
  /-- `(const Array1&, const Array2&)` -/
  | const
  /-- `(std::vector<T>&&, const Array&)` -/
  | first
  /-- `(const Array&, std::vector<T>&&)` -/
  | second
deriving DecidableEq

/-- Whether an overload accepts operands of these containers and categories
(scicpp/core/manips.hpp:27-28, 48-52, 75-76, 101-102). -/
def COverload.viable (t1 t2 : Cont × Bool) : COverload → Bool
  | .arrays => t1.1 == .arr && t2.1 == .arr
  | .const => true
  | .first => t1 == (.vec, true)
  | .second => t2 == (.vec, true)

/-- How well the two parameters of an overload bind rvalues: 1 for an rvalue reference, 0 for a const
lvalue reference. -/
def COverload.rank : COverload → ℕ × ℕ
  | .arrays => (0, 0)
  | .const => (0, 0)
  | .first => (1, 0)
  | .second => (0, 1)

/-- More specialised template among equally good overloads: `arrays` before `const`. -/
def COverload.special : COverload → ℕ
  | .arrays => 1
  | _ => 0

/-- `o` is a better overload than `p` (C++ [over.match.best]): at no parameter worse, at some better, or
equally good and more specialised. -/
def COverload.better (o p : COverload) : Bool :=
  decide (p.rank.1 ≤ o.rank.1) && decide (p.rank.2 ≤ o.rank.2) &&
    (decide (p.rank.1 < o.rank.1) || decide (p.rank.2 < o.rank.2) || decide (p.special < o.special))

/-- Overload resolution of the call in `operator|` (scicpp/core/manips.hpp:134-136; the variadic function
declared below it is not visible there): the viable overload better than every other viable one, `none` when
there is no such one (ambiguous). -/
def cresolve (t1 t2 : Cont × Bool) : Option COverload :=
  let all := [COverload.arrays, .const, .first, .second].filter (·.viable t1 t2)
  all.find? fun o => all.all fun p => p == o || o.better p

/-- The container and value category of an expression, `none` when it does not compile
(scicpp/core/manips.hpp:126-136).  The overloads return a `std::array` (line 31, 40) or a `std::vector`. -/
def CExpr.type (env : CEnv α) : CExpr α → Option (Cont × Bool)
  | .named x => some ((env x).cont, false)
  | .moved x => some ((env x).cont, true)
  | .temp c _ => some (c, true)
  | .cat _ a b =>
    match a.type env, b.type env with
    | some t1, some t2 =>
      match cresolve t1 t2 with
      | some .arrays => some (.arr, true)
      | some _ => some (.vec, true)
      | none => none
    | _, _ => none

/-- Container and category of an operand. -/
def COp.type (env : CEnv α) : COp α → Cont × Bool
  | .obj x rv => ((env x).cont, rv)
  | .tmp c _ => (c, true)

/-- The contents an operand has when it is read. -/
def COp.read (env : CEnv α) : COp α → List α
  | .obj x _ => (env x).data
  | .tmp _ l => l

/-- Both operands are the same object. -/
def COp.alias : COp α → COp α → Bool
  | .obj x _, .obj y _ => x == y
  | _, _ => false

/-- The object an operand was moved from is left empty (a vector) or unchanged. -/
def COp.consume (env : CEnv α) : COp α → CEnv α
  | .obj x _ => Function.update env x ⟨(env x).cont, movedFrom (env x).cont (env x).data⟩
  | .tmp _ _ => env

/-- The call of the selected overload (scicpp/core/manips.hpp:27-124).  The overloads that reuse one operand
change it before (`resize`) or while (`insert`) they read the other, so the same object on both sides is
undefined. -/
def ccall (dflt : α) (env : CEnv α) (o1 o2 : COp α) : Res (CEnv α × COp α) :=
  match cresolve (o1.type env) (o2.type env) with
  | none => .ub
  | some .arrays => do
    let r ← concatConst id id dflt (o1.read env) (o2.read env)
    pure (env, .tmp .arr r)
  | some .const => do
    let r ← concatConst id id dflt (o1.read env) (o2.read env)
    pure (env, .tmp .vec r)
  | some .first =>
    if COp.alias o1 o2 then .ub
    else do
      let r ← concatFirst (.same id) dflt (o1.read env) (o2.read env)
      pure (o1.consume env, .tmp .vec r)
  | some .second =>
    if COp.alias o1 o2 then .ub
    else pure (o2.consume env, .tmp .vec (concatSecond (.same id) (o1.read env) (o2.read env)))

/-- Evaluation of an expression to an operand (scicpp/core/manips.hpp:126-136): named containers are passed
by reference and read when the enclosing call runs. -/
def CExpr.eval (dflt : α) (env : CEnv α) : CExpr α → Res (CEnv α × COp α)
  | .named x => .ok (env, .obj x false)
  | .moved x => .ok (env, .obj x true)
  | .temp c l => .ok (env, .tmp c l)
  | .cat true a b => do
    let r1 ← a.eval dflt env
    let r2 ← b.eval dflt r1.1
    ccall dflt r2.1 r1.2 r2.2
  | .cat false a b => do
    let r2 ← b.eval dflt env
    let r1 ← a.eval dflt r2.1
    ccall dflt r1.1 r1.2 r2.2

/-- The value of an expression: its contents when it initialises a new container, and the named containers
afterwards (scicpp/core/manips.hpp:126-136). -/
def CExpr.value (dflt : α) (env : CEnv α) (e : CExpr α) : Res (List α × CEnv α) := do
  let r ← e.eval dflt env
  match r.2 with
  | .obj x true => pure ((r.1 x).data, (COp.obj x true : COp α).consume r.1)
  | o => pure (o.read r.1, r.1)

/-- The variadic `concatenate(a1, …, an)` (scicpp/core/manips.hpp:140-145): the right fold
`a1 | (a2 | (… | an))`, `ord i` the compiler's choice at the `i`-th operator; not callable without
arguments. -/
def CExpr.many (ord : ℕ → Bool) : List (CExpr α) → Option (CExpr α)
  | [] => none
  | [a] => some a
  | a :: b :: rest => (CExpr.many (fun i => ord (i + 1)) (b :: rest)).map fun r => .cat (ord 0) a r

end SciCpp
