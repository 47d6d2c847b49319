import Verif.Model.Io
import Verif.Model.Spectral
/-
  Chained calls of setters, `TxtLoader::load`, `load_vector` and `TxtSaver`.

  Every setter of `Spectrum` (scicpp/signal/spectral.hpp:70-111), `TxtLoader` (scicpp/core/io.hpp:413-474),
  `TxtSaver` (scicpp/core/io.hpp:591-599) and of the plot classes (scicpp/plots/plot.hpp:36-70,
  scicpp/plots/hist.hpp:36-62, scicpp/plots/boxplot.hpp:61-131, scicpp/plots/spectrum.hpp:36-46) is declared
  `auto f(...)` and ends with `return *this;`: it changes the object and returns a *copy* of it.
-/
namespace SciCpp

section Chain

variable {S O : Type}

/-- The expression `x.s1(..).s2(..)...` for an object in state `s`: the state of `x` afterwards and the value of the
expression.  The first setter changes `x` and returns a copy, the others change copies
(e.g. scicpp/core/io.hpp:413-426). -/
def chainCall (exec : S → O → Res S) (s : S) : List O → Res (S × S)
  | [] => .ok (s, s)
  | o :: os => do
    let s1 ← exec s o
    let v ← os.foldlM exec s1
    pure (s1, v)

/-- Statements about configured objects, which are numbered. -/
inductive CfgStmt (O : Type) where
  /-- `x.s1(..).s2(..)...;` -/
  | call (x : ℕ) (ops : List O)
  /-- `y = x.s1(..).s2(..)...;` -/
  | assign (y x : ℕ) (ops : List O)
  /-- `y = C().s1(..).s2(..)...;` -/
  | fresh (y : ℕ) (ops : List O)

/-- One statement; `init` is a default constructed object (e.g. scicpp/core/io.hpp:411, 522-528). -/
def cfgStep (exec : S → O → Res S) (init : S) (st : ℕ → S) : CfgStmt O → Res (ℕ → S)
  | .call x ops => do
    let r ← chainCall exec (st x) ops
    pure (Function.update st x r.1)
  | .assign y x ops => do
    let r ← chainCall exec (st x) ops
    pure (Function.update (Function.update st x r.1) y r.2)
  | .fresh y ops => do
    let r ← chainCall exec init ops
    pure (Function.update st y r.2)

/-- A program: the objects afterwards. -/
def cfgRun (exec : S → O → Res S) (init : S) (st : ℕ → S) (p : List (CfgStmt O)) : Res (ℕ → S) :=
  p.foldlM (cfgStep exec init) st

end Chain

/-- The setters of `Spectrum` as calls on a configuration (scicpp/signal/spectral.hpp:70-111); computations are
members of `SpecOp` too. -/
noncomputable def SpecCfg.set (c : SpecCfg) (op : SpecOp) : Res SpecCfg := do
  let r ← c.exec op
  pure r.2

variable {α : Type}

/-- A `TxtLoader` (scicpp/core/io.hpp:405-411, 521-528). -/
structure Loader (α : Type) where
  opts : LoadOpts := {}
  dicts : Dicts α := {}

/-- The setters of `TxtLoader` (scicpp/core/io.hpp:413-474). -/
inductive LoaderCall (α : Type) where
  | opt (op : LoaderOp)
  | converters (c : List (ℤ × (List Char → α)))
  | filters (f : List (ℤ × (α → Bool)))

/-- One setter of a `TxtLoader` with `ntypes` data types (scicpp/core/io.hpp:413-474). -/
def Loader.exec (ntypes : ℕ) (l : Loader α) : LoaderCall α → Res (Loader α)
  | .opt op => do
    let o ← l.opts.exec ntypes op
    pure { l with opts := o }
  | .converters c => .ok { l with dicts := { l.dicts with converters := c } }
  | .filters f => .ok { l with dicts := { l.dicts with filters := f } }

/-- `get_field<j>` of every row (scicpp/core/tuple.hpp:83-100, for rows of one variant type). -/
def columnOf (dflt : α) (rows : List (List α)) (j : ℕ) : List α := rows.map fun r => r.getD j dflt

/-- `TxtLoader<T1, ..., Tk>::load<pack>(fname)` (scicpp/core/io.hpp:476-494): a matrix (as rows) for one data type,
for several the rows (`pack`) or the columns (`unpack`, 491). `conv j` converts a field of the `j`-th type. -/
def Loader.load (conv : ℕ → List Char → α) (dflt : α) (k : ℕ) (pack : Bool) (l : Loader α)
    (file : Option (List Char)) : Res (List (List α)) :=
  if k = 1 then loadtxtMatrix (conv 0) l.dicts l.opts file
  else do
    let rows ← loadtxtTuples conv k l.dicts l.opts file
    if pack then pure rows else pure ((List.range k).map (columnOf dflt rows))

/-- `TxtLoader<T1, ...>::load_vector(fname)` (scicpp/core/io.hpp:497-518): all values as the first data type and the
number of columns (returned for several data types only). -/
def Loader.loadVector (conv : ℕ → List Char → α) (k : ℕ) (l : Loader α) (file : Option (List Char)) :
    Res (List α × Option ℕ) := do
  let r ← loadtxtToVector (conv 0) l.dicts l.opts file
  pure (r.1, if 1 < k then some r.2 else none)

/-- A `TxtSaver` (scicpp/core/io.hpp:587-613). -/
structure Saver where
  delimiter : Char := ' '
  newline : Char := '\n'

/-- The setters of `TxtSaver` (scicpp/core/io.hpp:591-599). -/
inductive SaverOp where
  | delimiter (ch : Char)
  | newline (ch : Char)

/-- One setter (scicpp/core/io.hpp:591-599). -/
def Saver.exec (s : Saver) : SaverOp → Res Saver
  | .delimiter ch => .ok { s with delimiter := ch }
  | .newline ch => .ok { s with newline := ch }

/-- `TxtSaver::save(fname, X)` (scicpp/core/io.hpp:601-607): the contents of the file. -/
def Saver.save (s : Saver) (cols : List (List (List Char))) : Res (List Char) :=
  savetxtTuple s.delimiter s.newline cols

end SciCpp
