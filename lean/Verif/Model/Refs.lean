import Verif.Model.Basis

/-!
# Matrices that a basis returns by reference

`get_derivative_matrix_block`, `continuity_matrix` and `gspline_derivative_matrix` (Basis.hpp:140-185) return references to members of the basis object. The models in
`Model/Basis.lean` return the matrix at the end of the call; here the caller keeps the reference and looks at it after later calls.
-/

namespace GSplines.Refs

open GSplines

/-- The members of a basis object that are handed out: `derivative_matrix_array_` (Basis.hpp:27), a `std::vector` with the number of its present allocation, its capacity
and its entries; the maps `continuity_matrix_buff_`, `continuity_matrix_dynamic_buff_` and `derivative_matrix_buff_`, `derivative_matrix_dynamic_buff_` (Basis.hpp:29-55). -/
structure Obj where
  alloc : ℕ
  cap : ℕ
  blocks : List Mat
  cont : Basis.CCache
  dmat : Basis.CCache

/-- A reference to an entry of the present allocation of the vector, or to a value in one of the maps. -/
inductive Ref where
  | block (alloc index : ℕ)
  | cont (key : Basis.CKey)
  | dmat (key : Basis.CKey)

/-- `std::vector::push_back`: without room for another entry all entries move to a new allocation. `grow` is the rule of the implementation for its capacity. -/
def pushBack (grow : ℕ → ℕ) (o : Obj) (m : Mat) : Obj :=
  if o.blocks.length < o.cap then { o with blocks := o.blocks ++ [m] }
  else { o with alloc := o.alloc + 1, cap := grow o.cap, blocks := o.blocks ++ [m] }

/-- Basis.hpp:143-150: the vector is extended to `d + 1` entries. -/
noncomputable def fill (b : Basis) (grow : ℕ → ℕ) (o : Obj) (d : ℕ) : Obj :=
  forLoop o.blocks.length (d + 1) (fun k o => pushBack grow o (b.derivMatrixImpl k)) o

/-- Basis.hpp:68-76: a new object; the vector had no room before the `push_back` of the identity. -/
def new (grow : ℕ → ℕ) : Obj := pushBack grow ⟨0, 0, [], fun _ => none, fun _ => none⟩ Mat.id

/-- The calls that return references. -/
inductive Req where
  | block (d : ℕ)
  | cont (n codim order : ℕ) (tau : List ℝ)
  | dmat (n codim order : ℕ) (tau : List ℝ)

/-- The call: the object afterwards and the reference. Basis.hpp:140-152; Basis.cpp:45-156, which asks for the blocks only for a new key (line 63, `n = 0` is undefined behaviour before that);
Basis.cpp:158-218, likewise (line 172). References to values in a `std::map` stay valid when others are inserted. -/
noncomputable def call (b : Basis) (grow : ℕ → ℕ) (o : Obj) : Req → Obj × Res Ref
  | .block d => let o' := fill b grow o d; (o', .ok (.block o'.alloc d))
  | .cont n codim order tau =>
    let o' := if n = 0 ∨ (o.cont (n, codim, order)).isSome then o else fill b grow o order
    let r := b.continuityMatrix n codim order tau o.cont
    ({ o' with cont := r.1 }, r.2.map fun _ => .cont (n, codim, order))
  | .dmat n codim order tau =>
    let o' := if (o.dmat (n, codim, order)).isSome then o else fill b grow o order
    let r := b.gsplineDerivativeMatrix n codim order tau o.dmat
    ({ o' with dmat := r.1 }, r.2.map fun _ => .dmat (n, codim, order))

/-- The matrix that the reference refers to; an entry of an allocation that was given up, or that does not exist, is undefined behaviour. -/
def deref (o : Obj) : Ref → Res Mat
  | .block a i =>
    if a = o.alloc then
      match o.blocks[i]? with
      | some m => .ok m
      | none => .error .ub
    else .error .ub
  | .cont key =>
    match o.cont key with
    | some (_, dy) => .ok dy
    | none => .error .ub
  | .dmat key =>
    match o.dmat key with
    | some (_, dy) => .ok dy
    | none => .error .ub

/-- A sequence of calls. -/
noncomputable def calls (b : Basis) (grow : ℕ → ℕ) (o : Obj) (qs : List Req) : Obj := qs.foldl (fun o q => (call b grow o q).1) o

end GSplines.Refs
