import Verif.Model.LinFun

/-!
# Specification: programs on linear functionals as programs on functions

A variable holds a function from vectors of one size to vectors of another. Products are compositions, sums, differences, negatives and multiples are taken entry by entry, and `set` gives the variable the function of another one.
-/

namespace GSplines.Spec.LinFun

open GSplines.LinFun (Stmt Kind)

/-- A function from vectors with `dom` entries to vectors with `cod` entries. -/
structure Map where
  dom : ℕ
  cod : ℕ
  f : List ℝ → List ℝ

/-- The functions that the variables hold. -/
abbrev Env := ℕ → Option Map

/-- Assignment. -/
def Env.put (E : Env) (x : ℕ) (m : Map) : Env := fun y => if y = x then some m else E y

/-- Matrix times vector: entry `i` is the sum of the products of the entries of row `i` and of the vector. -/
def ofMatrix (rows cols : ℕ) (m : ℕ → ℕ → ℝ) : Map := ⟨cols, rows, fun v => (List.range rows).map fun i => ((List.range cols).map fun j => m i j * v.getD j 0).sum⟩

/-- A statement. `none`: a variable that is not defined, or functions that do not fit. -/
def step (E : Env) : Stmt → Option Env
  | .new z _ L => some (E.put z (ofMatrix L.rows L.cols L.mat))
  | .copy z x => do return E.put z (← E x)
  | .mul z x y => do
    let a ← E x
    let b ← E y
    if a.dom = b.cod then some (E.put z ⟨b.dom, a.cod, fun v => a.f (b.f v)⟩) else none
  | .add z x y => do
    let a ← E x
    let b ← E y
    if a.dom = b.dom ∧ a.cod = b.cod then some (E.put z ⟨a.dom, a.cod, fun v => List.zipWith (· + ·) (a.f v) (b.f v)⟩) else none
  | .sub z x y => do
    let a ← E x
    let b ← E y
    if a.dom = b.dom ∧ a.cod = b.cod then some (E.put z ⟨a.dom, a.cod, fun v => List.zipWith (· - ·) (a.f v) (b.f v)⟩) else none
  | .neg z x => do
    let a ← E x
    return E.put z ⟨a.dom, a.cod, fun v => (a.f v).map (- ·)⟩
  | .smul z k x => do
    let a ← E x
    return E.put z ⟨a.dom, a.cod, fun v => (a.f v).map (k * ·)⟩
  | .convert z _ x => do return E.put z (← E x)
  | .scale x k => do
    let a ← E x
    return E.put x ⟨a.dom, a.cod, fun v => (a.f v).map (k * ·)⟩
  | .set x y => do
    let _ ← E x
    let b ← E y
    return E.put x b

/-- A program. -/
def run : List Stmt → Env → Option Env
  | [], E => some E
  | s :: p, E => (step E s).bind (run p)

/-- The types that the declarations of a program give to its variables. -/
abbrev Types := ℕ → Option Kind

/-- Assignment. -/
def Types.put (T : Types) (x : ℕ) (k : Kind) : Types := fun y => if y = x then some k else T y

/-- The types after a statement; `none`: the statement mixes a sparse left operand with a dense right one, adds matrices of different storage orders, or gives a sparse functional a dense one. -/
def types (T : Types) : Stmt → Option Types
  | .new z k _ => some (T.put z k)
  | .copy z x | .neg z x | .smul z _ x => do return T.put z (← T x)
  | .mul z x y => do
    let k ← T x
    let l ← T y
    if k = .dense ∨ l ≠ .dense then some (T.put z k) else none
  | .add z x y | .sub z x y => do
    let k ← T x
    let l ← T y
    if k = .dense ∨ k = l then some (T.put z k) else none
  | .convert z dense x => do
    let _ ← T x
    return T.put z (if dense then .dense else .sparse)
  | .scale x _ => do
    let _ ← T x
    return T
  | .set x y => do
    let k ← T x
    let l ← T y
    if k = .dense ∨ l ≠ .dense then some T else none

/-- The types after a program. -/
def typesAll : List Stmt → Types → Option Types
  | [], T => some T
  | s :: p, T => (types T s).bind (typesAll p)

/-- Every `set` of the program gives the variable a function with values of the same size. -/
def SameSize : List Stmt → Env → Prop
  | [], _ => True
  | s :: p, E => (∀ x y, s = .set x y → (E x).map Map.cod = (E y).map Map.cod) ∧ ∀ E', step E s = some E' → SameSize p E'

end GSplines.Spec.LinFun
