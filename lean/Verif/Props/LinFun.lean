import Verif.Proofs.LinFun

/-!
# C90: programs on linear functionals

The specification is Spec/LinFun.lean: programs in which variables hold functions on vectors. The model is Model/LinFun.lean: the same programs on objects with a matrix, a storage type and the number that `get_codom_dim()` returns.
-/

namespace GSplines.Props

open GSplines Colloc LinFun
open GSplines.Spec.LinFun (Map Env Types types typesAll SameSize ofMatrix)

/-- No objects. -/
def noFunctionals : LinFun.Store := fun _ => none

/-- No variables. -/
def noMaps : Spec.LinFun.Env := fun _ => none

/-- No types. -/
def noTypes : Spec.LinFun.Types := fun _ => none

theorem linFun_rep_none : LinFun.Rep noFunctionals noTypes noMaps := fun x m h => by simp [noMaps] at h

theorem linFun_repC_none : LinFun.RepC noFunctionals noMaps := fun x m o h => by simp [noMaps] at h

theorem linFun_call {σ : LinFun.Store} {x : ℕ} {o : Obj} {m : Map} (ho : σ x = some o) (hd : Denotes o.lf m) (v : List ℝ) :
    call σ x v = if v.length = m.dom then .ok (m.f v) else .error .ub := by
  unfold call
  rw [get_some ho]
  show (match o.lf.apply v with | .ok w => Except.ok w | .error _ => .error Stop.ub) = _
  by_cases h : v.length = m.dom
  · rw [if_pos h, apply_ok (by rw [h, hd.dom]), ← hd.val v h]
  · rw [if_neg h, LF.apply, if_pos (by rw [hd.dom]; exact h)]

/-- **C90.** Take any program of constructions from a matrix, copies, differentials, conversions between dense and sparse storage, products, sums, differences, negatives, multiples and calls of `set`, that combines only
functionals that fit and never has a dense functional on the right of a sparse one. It runs to its end, and every variable then computes the function that the program describes: compositions for products, entry by entry for the
rest. On a vector of another size the call is undefined. -/
theorem C90_values (p : List Stmt) (T : Types) (E : Env) (hT : typesAll p noTypes = some T) (hE : Spec.LinFun.run p noMaps = some E) :
    ∃ σ, run p noFunctionals = .ok σ ∧ ∀ x m, E x = some m → ∀ v, call σ x v = if v.length = m.dom then .ok (m.f v) else .error .ub := by
  obtain ⟨σ, e, hR, -⟩ := run_refines p noFunctionals noTypes T noMaps E linFun_rep_none hT hE
  refine ⟨σ, e, fun x m hx v => ?_⟩
  obtain ⟨o, ho, -, hd⟩ := hR x m hx
  exact linFun_call ho hd v

/-- **C90, the number of values.** If no call of `set` changes the number of values, then `get_codom_dim()` is the number of entries of every result. Without the condition this is false: `C90_codim_false`. -/
theorem C90_codim_partial (p : List Stmt) (T : Types) (E : Env) (hT : typesAll p noTypes = some T) (hE : Spec.LinFun.run p noMaps = some E) (hS : SameSize p noMaps) :
    ∃ σ, run p noFunctionals = .ok σ ∧ ∀ x m, E x = some m → codomDim σ x = .ok m.cod ∧ ∀ v, v.length = m.dom → ∃ w, call σ x v = .ok w ∧ w.length = m.cod := by
  obtain ⟨σ, e, hR, hC⟩ := run_refines p noFunctionals noTypes T noMaps E linFun_rep_none hT hE
  refine ⟨σ, e, fun x m hx => ?_⟩
  obtain ⟨o, ho, -, hd⟩ := hR x m hx
  refine ⟨?_, fun v hv => ⟨m.f v, by rw [linFun_call ho hd, if_pos hv], ?_⟩⟩
  · unfold codomDim
    rw [get_some ho, ← hC linFun_repC_none hS x m o hx ho]; rfl
  · rw [← hd.val v hv]; simp [hd.cod]

/-- **C90, linearity.** Whatever the program, as long as it runs: every functional is linear. -/
theorem C90_linear (p : List Stmt) (σ : LinFun.Store) (_ : run p noFunctionals = .ok σ) (x : ℕ) (a b : ℝ) (v w : List ℝ) (rv rw' : List ℝ) (hv : call σ x v = .ok rv) (hw : call σ x w = .ok rw') :
    call σ x (List.zipWith (fun s t => a * s + b * t) v w) = .ok (List.zipWith (fun s t => a * s + b * t) rv rw') := by
  unfold call at *
  cases hx : σ.get x with
  | error e => rw [hx] at hv; cases hv
  | ok o =>
    rw [hx] at hv hw
    change (match o.lf.apply v with | .ok w => Except.ok w | .error _ => .error Stop.ub) = _ at hv
    change (match o.lf.apply w with | .ok w => Except.ok w | .error _ => .error Stop.ub) = _ at hw
    show (match o.lf.apply _ with | .ok w => Except.ok w | .error _ => .error Stop.ub) = _
    by_cases h1 : v.length = o.lf.cols
    · by_cases h2 : w.length = o.lf.cols
      · rw [apply_ok h1] at hv
        rw [apply_ok h2] at hw
        rw [apply_ok (by simp [h1, h2])]
        simp only [Except.ok.injEq] at hv hw ⊢
        rw [← hv, ← hw, zip_range]
        refine List.map_congr_left fun i _ => ?_
        simp only [Mat.mulVec, Finset.mul_sum, ← Finset.sum_add_distrib]
        refine Finset.sum_congr rfl fun k hk => ?_
        have hk' := Finset.mem_range.1 hk
        have e : vecOf (List.zipWith (fun s t => a * s + b * t) v w) k = a * vecOf v k + b * vecOf w k := by
          simp [vecOf, h1, h2, hk', List.getD_eq_getElem?_getD]
        rw [e]; ring
      · rw [LF.apply, if_pos h2] at hw; cases hw
    · rw [LF.apply, if_pos h1] at hv; cases hv

/-- **C90 is false for a dense functional given to a sparse one.** `set` throws `std::runtime_error`, and the functional stays as it was. -/
theorem C90_set_dense_false (σ : LinFun.Store) (x y : ℕ) (a b : Obj) (ha : σ x = some a) (hb : σ y = some b) :
    ((Stmt.set x y).run σ = .error .runtimeError ↔ a.kind ≠ .dense ∧ b.kind = .dense) ∧ (a.kind ≠ .dense → b.kind = .dense → ∀ p, run (.set x y :: p) σ = run p σ) := by
  have e : (Stmt.set x y).run σ = (replace a b).map fun o => σ.put x o := by
    rw [Stmt.run, get_some ha, get_some hb]
    show (do return σ.put x (← replace a b)) = _
    cases replace a b <;> rfl
  have hr : replace a b = if a.kind ≠ .dense ∧ b.kind = .dense then .error .runtimeError else .ok { a with lf := b.lf } := by
    unfold replace
    cases a.kind <;> cases b.kind <;> simp
  refine ⟨?_, fun h1 h2 p => ?_⟩
  · rw [e, hr]
    split
    · next h => exact ⟨fun _ => h, fun _ => rfl⟩
    · next h => exact ⟨fun h' => by simp [Except.map] at h', fun h' => absurd h' h⟩
  · rw [run, e, hr, if_pos ⟨h1, h2⟩]; rfl

/-- **C90 is false for the number of values.** A functional with one value is given a matrix with two rows: it then returns two values, and `get_codom_dim()`, also of copies, negatives and multiples of it, still is 1. A product
with it has the right number. -/
theorem C90_codim_false : ∃ (p : List Stmt) (T : Types) (E : Env) (σ : LinFun.Store), typesAll p noTypes = some T ∧ Spec.LinFun.run p noMaps = some E ∧ run p noFunctionals = .ok σ ∧
    call σ 0 [3] = .ok [3, 6] ∧ codomDim σ 0 = .ok 1 ∧ call σ 2 [3] = .ok [-3, -6] ∧ codomDim σ 2 = .ok 1 ∧ call σ 3 [3] = .ok [9, 18] ∧ codomDim σ 3 = .ok 2 := by
  let p : List Stmt := [.new 0 .dense ⟨1, 1, fun _ _ => 5⟩, .new 1 .sparse ⟨2, 1, fun i _ => if i = 0 then 1 else 2⟩, .set 0 1, .neg 2 0, .new 4 .sparse ⟨1, 1, fun _ _ => 3⟩, .mul 3 0 4]
  have hT : ∃ T, typesAll p noTypes = some T := ⟨_, rfl⟩
  have hE : ∃ E, Spec.LinFun.run p noMaps = some E := ⟨_, rfl⟩
  obtain ⟨T, hT⟩ := hT
  obtain ⟨E, hE⟩ := hE
  refine ⟨p, T, E, _, hT, hE, rfl, ?_, rfl, ?_, rfl, ?_, rfl⟩
  · show Except.ok _ = _
    norm_num [make, LinFun.neg, LinFun.copy, Mat.mulVec, vecOf, List.range_succ]
  · show Except.ok _ = _
    norm_num [make, LinFun.neg, LinFun.copy, Mat.mulVec, vecOf, List.range_succ, LF.neg]
  · show Except.ok _ = _
    norm_num [make, LinFun.neg, LinFun.copy, Mat.mulVec, vecOf, List.range_succ, Mat.mul]

theorem linFun_sameSize_cons {s : Stmt} {p : List Stmt} {E E' : Env} (h : Spec.LinFun.step E s = some E') (hs : ∀ x y, s = .set x y → (E x).map Map.cod = (E y).map Map.cod) (hp : SameSize p E') :
    SameSize (s :: p) E := ⟨hs, fun E'' h' => by rw [h, Option.some.injEq] at h'; rw [← h']; exact hp⟩

/-- A program of twelve statements with all operators that meets the hypotheses of `C90_values` and of `C90_codim_partial`. -/
def linFunProgram : List Stmt :=
  [.new 0 .dense ⟨1, 2, fun _ j => if j = 0 then 1 else 2⟩, .new 1 .sparse ⟨1, 2, fun _ _ => 1⟩, .sub 2 0 1, .new 3 .sparseRow ⟨2, 3, fun i j => if i = j then 1 else 0⟩, .smul 4 2 3, .mul 5 2 4,
    .convert 6 false 5, .scale 6 10, .set 5 6, .neg 7 5, .copy 8 7, .add 9 5 8]

example : ∃ T E, typesAll linFunProgram noTypes = some T ∧ Spec.LinFun.run linFunProgram noMaps = some E ∧ SameSize linFunProgram noMaps ∧
    (∃ m, E 5 = some m ∧ m.dom = 3 ∧ m.cod = 1 ∧ m.f [4, 5, 6] = [100]) ∧ ∃ m, E 9 = some m ∧ m.f [4, 5, 6] = [0] := by
  refine ⟨_, _, rfl, rfl, ?_, ⟨_, rfl, rfl, rfl, ?_⟩, ⟨_, rfl, ?_⟩⟩
  · unfold linFunProgram
    repeat' first
      | exact trivial
      | refine linFun_sameSize_cons rfl (fun x y h => ?_) ?_
    all_goals (cases h; try rfl)
  · norm_num [ofMatrix, List.range_succ]
  · norm_num [ofMatrix, List.range_succ]

end GSplines.Props
