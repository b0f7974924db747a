import Verif.Proofs.SplineObj

/-!
# C89: programs on splines

The specification is Spec/SplineObj.lean: programs in which variables hold splines, as values. The model is Model/SplineObj.lean: the same programs on objects, where the overloads for rvalues compute in the memory of an operand.
-/

namespace GSplines.Props

open GSplines.SplineObj Spec.SplineObj
open GSplines.Spec (Consistent Positive curve piece comb basisFn window brk)

/-- No objects. -/
def noSplines : GSplines.SplineObj.Store := fun _ => none

/-- No variables. -/
def noValues : Spec.SplineObj.Env := fun _ => none

theorem rep_none : Rep noSplines noValues := fun x g h => by simp [noValues] at h

/-! ## Programs give the splines that they describe -/

/-- **C89.** Take any program of constructions, copies, moves, sums, differences, in-place sums and differences, products by numbers, negatives, products and assignments, with any combination of lvalue and rvalue operands, also
with the same object twice in a statement, that never uses a variable after it was passed as an rvalue to a statement that did not throw. On the objects it throws at the same statements as on values, ends, and
every variable that was not passed as an rvalue holds its value, with the right number of coefficients. -/
theorem C89_values (p : List Stmt) (bs : List Bool) (E : Env) (h : Spec.SplineObj.run p noValues = some (bs, E)) :
    ∃ σ, GSplines.SplineObj.run p noSplines = (.ok bs, σ) ∧ ∀ x g, E x = some g → Consistent g ∧ σ x = some (.live g) ∧ ∀ t, eval σ x t = .ok (g.value t) := by
  obtain ⟨σ, e, hR⟩ := run_refines p noSplines noValues rep_none bs E h
  refine ⟨σ, e, fun x g hx => ⟨(hR x g hx).2, (hR x g hx).1, fun t => ?_⟩⟩
  unfold eval; rw [(hR x g hx).1]

section examples

theorem spline_then_ok {s : Stmt} {p : List Stmt} {E E' E'' : Env} {bs : List Bool} (h : step E s = some (.ok E')) (h' : Spec.SplineObj.run p E' = some (bs, E'')) :
    Spec.SplineObj.run (s :: p) E = some (false :: bs, E'') := by
  rw [Spec.SplineObj.run, h]; dsimp only; rw [h']; rfl

theorem spline_then_throw {s : Stmt} {p : List Stmt} {E E'' : Env} {bs : List Bool} {e : Err} (h : step E s = some (.error e))
    (h' : Spec.SplineObj.run p E = some (bs, E'')) : Spec.SplineObj.run (s :: p) E = some (true :: bs, E'') := by
  rw [Spec.SplineObj.run, h]; dsimp only; rw [h']; rfl

theorem spline_run_snoc {s : Stmt} {E' E'' : Env} : ∀ {p : List Stmt} {E : Env} {bs : List Bool}, Spec.SplineObj.run p E = some (bs, E') → step E' s = some (.ok E'') →
    Spec.SplineObj.run (p ++ [s]) E = some (bs ++ [false], E'')
  | [], E, bs, h, hs => by
    simp only [Spec.SplineObj.run, Option.some.injEq, Prod.mk.injEq] at h
    obtain ⟨rfl, rfl⟩ := h
    exact spline_then_ok hs rfl
  | s' :: p, E, bs, h, hs => by
    rw [Spec.SplineObj.run] at h
    rcases hs' : step E s' with _ | (e | E1)
    · rw [hs'] at h; cases h
    · rw [hs'] at h
      obtain ⟨q, hq, hq'⟩ := Option.map_eq_some_iff.1 h
      simp only [Prod.mk.injEq] at hq'
      obtain ⟨rfl, rfl⟩ := hq'
      exact spline_then_throw hs' (spline_run_snoc hq hs)
    · rw [hs'] at h
      obtain ⟨q, hq, hq'⟩ := Option.map_eq_some_iff.1 h
      simp only [Prod.mk.injEq] at hq'
      obtain ⟨rfl, rfl⟩ := hq'
      exact spline_then_ok hs' (spline_run_snoc hq hs)

/-- `GSpline x({1, 4}, 1, 2, Legendre(2), {1, 2, 3, 4}, {1, 2})`. -/
noncomputable def newEx (x : ℕ) : Stmt := .new x (1, 4) 1 2 (.legendre 2) [1, 2, 3, 4] [1, 2]

/-- The same on `[0, 3]`. -/
noncomputable def newEx0 (x : ℕ) : Stmt := .new x (0, 3) 1 2 (.legendre 2) [1, 2, 3, 4] [1, 2]

theorem step_newEx (E : Env) (x : ℕ) : step E (newEx x) = some (.ok (E.set x (some exSpline))) := by
  simp only [step, newEx]
  rw [if_pos ⟨by norm_num, by simp⟩, if_pos (by simp [Basis.dim])]; rfl

theorem step_newEx0 (E : Env) (x : ℕ) : step E (newEx0 x) = some (.ok (E.set x (some exSpline0))) := by
  simp only [step, newEx0]
  rw [if_pos ⟨by norm_num, by simp⟩, if_pos (by simp [Basis.dim])]; rfl

theorem step_sum {minus : Bool} {z x y : ℕ} {rx ry : Bool} {E : Env} {a b r : GSpline} (hx : E x = some a) (hy : E y = some b) (hr : Spec.SplineObj.sum minus rx ry a b = .ok r) :
    step E (.bin minus z rx x ry y) = some (.ok (((E.drop rx x).drop ry y).set z (some r))) := by
  simp [step, hx, hy, hr, Except.map]

/-- A spline with other lengths, so that sums with the example throw. -/
noncomputable def newOther (x : ℕ) : Stmt := .new x (0, 1) 1 1 (.legendre 2) [5, 6] [1]

theorem step_newOther (E : Env) (x : ℕ) : step E (newOther x) = some (.ok (E.set x (some ⟨(0, 1), 1, .legendre 2, [5, 6], [1]⟩))) := by
  simp only [step, newOther]
  rw [if_pos ⟨by norm_num, by simp⟩, if_pos (by simp [Basis.dim])]

/-- The hypotheses hold for `x; w; y = std::move(w) + x` (throws) `; z = x - std::move(x)`, with an object twice in a statement; at the end `z` is zero and `w` is what it was. -/
example : ∃ E, Spec.SplineObj.run [newEx 0, newOther 1, .bin false 2 true 1 false 0, .bin true 3 false 0 true 0] noValues = some ([false, false, true, false], E) ∧ E 0 = none ∧
    E 1 = some ⟨(0, 1), 1, .legendre 2, [5, 6], [1]⟩ ∧ E 3 = some { exSpline with coeffs := [0, 0, 0, 0] } := by
  have h1 : Spec.SplineObj.sum false true false ⟨(0, 1), 1, .legendre 2, [5, 6], [1]⟩ exSpline = .error .invalidArgument := by
    unfold Spec.SplineObj.sum
    rw [if_neg]
    intro h
    have := (C15_same_vector_space_sound _ _ h).2.2.2.1
    simp [exSpline] at this
  have h2 : Spec.SplineObj.sum true false true exSpline exSpline = .ok { exSpline with coeffs := [0, 0, 0, 0] } := by
    rw [sum_eq (C15_same_vector_space_complete _ _ rfl rfl rfl)]
    simp [exSpline, num]
  refine ⟨_, spline_then_ok (step_newEx _ _) (spline_then_ok (step_newOther _ _) (spline_then_throw (e := .invalidArgument) ?_ (spline_then_ok (step_sum rfl rfl h2) rfl))), rfl, rfl, rfl⟩
  show some ((Spec.SplineObj.sum false true false _ _).map _) = _
  rw [h1]; rfl

end examples

/-! ## What a statement does not change -/

/-- **C89.** An object that a statement neither defines nor gets as an rvalue is not changed by it, whatever happens: in every state, also if the statement throws. -/
theorem C89_unchanged (s : Stmt) (σ : GSplines.SplineObj.Store) (w : ℕ) (h : ¬ Touches w s) : (s.run σ).2 w = σ w := keeps_stmt s w h σ

/-- **C89.** If a statement throws `invalid_argument`, no object has changed, not even those passed as rvalues; this holds in every state. -/
theorem C89_throw (s : Stmt) (σ σ' : GSplines.SplineObj.Store) (h : s.run σ = (.error (.thrown .invalidArgument), σ')) : σ' = σ := clean_stmt s σ σ' h

/-- The hypotheses hold for `auto z = std::move(x) + std::move(y)` with splines of different lengths. -/
example : ∃ σ σ' : GSplines.SplineObj.Store, σ 0 = some (.live exSpline) ∧ (Stmt.bin false 2 true 0 true 1).run σ = (.error (.thrown .invalidArgument), σ') ∧
    ¬ Touches 7 (.bin false 2 true 0 true 1) := by
  let σ : GSplines.SplineObj.Store := fun x => if x = 0 then some (.live exSpline) else some (.live ⟨(0, 1), 1, .legendre 2, [5, 6], [1]⟩)
  refine ⟨σ, σ, rfl, bind_error (bin_throws (a := exSpline) (b := ⟨(0, 1), 1, .legendre 2, [5, 6], [1]⟩) rfl rfl ?_), by simp [Touches]⟩
  unfold Spec.SplineObj.sum
  rw [if_neg]
  intro h
  have := (C15_same_vector_space_sound _ _ h).2.2.2.1
  simp [exSpline] at this

/-! ## The values of the results -/

/-- **C89 (partial).** In every state that a program as above reaches: the sum or the difference of two objects with the same basis, components, lengths and start of the domain, or of an object and itself, is pointwise, whichever operands are
rvalues. Missing: objects that start at different instants, for which it is false below. -/
theorem C89_pointwise_partial (p : List Stmt) (bs : List Bool) (E : Env) (h : Spec.SplineObj.run p noValues = some (bs, E)) (minus rx ry : Bool) (z x y : ℕ) (a b : GSpline) (hx : E x = some a)
    (hy : E y = some b) (hne : a.tau ≠ []) (hd : b.dom.1 = a.dom.1) (h1 : b.basis = a.basis) (h2 : b.codim = a.codim) (h3 : b.tau = a.tau) :
    ∃ σ, GSplines.SplineObj.run (p ++ [.bin minus z rx x ry y]) noSplines = (.ok (bs ++ [false]), σ) ∧
      ∀ t, eval σ z t = .ok (do
        let u ← a.value t
        let v ← b.value t
        return List.zipWith (fun u v => if minus then u - v else u + v) u v) := by
  have hs : a.sameVectorSpace b = true := C15_same_vector_space_complete a b h1 h2 h3
  obtain ⟨σ0, -, hv⟩ := C89_values p bs E h
  have ca := (hv x a hx).1
  have cb := (hv y b hy).1
  have hl := consistent_length ca cb hs
  obtain ⟨s, hs'⟩ : ∃ s : GSpline, s = { (if rx = false ∧ ry = true then b else a) with coeffs := List.zipWith (num minus) a.coeffs b.coeffs } := ⟨_, rfl⟩
  have hr := sum_eq (minus := minus) (rx := rx) (ry := ry) hs
  rw [← hs'] at hr
  obtain ⟨σ, e, hσ⟩ := C89_values _ _ _ (spline_run_snoc h (step_sum (z := z) hx hy hr))
  refine ⟨σ, e, fun t => ?_⟩
  obtain ⟨-, -, ht⟩ := hσ z s (by simp [Env.set])
  rw [ht t]
  congr 1
  set op : BinOp := match minus, (rx = false ∧ ry = true : Bool) with
    | false, false => .addInPlace
    | false, true => .addToThat
    | true, false => .subInPlace
    | true, true => .subToThat with hop
  obtain ⟨r, hr', -, -, -, -, hval⟩ := C15_pointwise_partial op a b ca cb hne hd h1 h2 h3
  have key : r = { (if rx = false ∧ ry = true then b else a) with coeffs := List.zipWith (num minus) a.coeffs b.coeffs } ∧ op.num = num minus := by
    have hn : num false = (· + ·) := by funext u v; simp [num]
    have hn' : num true = (· - ·) := by funext u v; simp [num]
    cases minus <;> by_cases hrv : rx = false ∧ ry = true
    · rw [if_pos hrv]
      have : op = .addToThat := by rw [hop]; simp [hrv]
      rw [this] at hr' ⊢
      simp only [BinOp.run, GSpline.addToThat, hs, if_true, zipRes, if_pos hl.symm, bind, Except.bind, pure, Except.pure, Except.ok.injEq] at hr'
      rw [← hr', List.zipWith_comm_of_comm (fun u v => add_comm u v), hn]
      exact ⟨rfl, rfl⟩
    · rw [if_neg hrv]
      have : op = .addInPlace := by rw [hop]; simp [hrv]
      rw [this] at hr' ⊢
      simp only [BinOp.run, GSpline.addInPlace, hs, if_true, zipRes, if_pos hl, bind, Except.bind, pure, Except.pure, Except.ok.injEq] at hr'
      rw [← hr', hn]
      exact ⟨rfl, rfl⟩
    · rw [if_pos hrv]
      have : op = .subToThat := by rw [hop]; simp [hrv]
      rw [this] at hr' ⊢
      simp only [BinOp.run, GSpline.subToThat, hs, if_true, zipRes, if_pos hl, bind, Except.bind, pure, Except.pure, Except.ok.injEq] at hr'
      rw [← hr', hn']
      exact ⟨rfl, rfl⟩
    · rw [if_neg hrv]
      have : op = .subInPlace := by rw [hop]; simp [hrv]
      rw [this] at hr' ⊢
      simp only [BinOp.run, GSpline.subInPlace, hs, if_true, zipRes, if_pos hl, bind, Except.bind, pure, Except.pure, Except.ok.injEq] at hr'
      rw [← hr', hn']
      exact ⟨rfl, rfl⟩
  rw [hs', ← key.1, hval t, key.2]
  rfl

/-- The hypotheses hold for `x; z = x + std::move(x)`, and `z(3)` is twice `x(3)`. -/
example : ∃ σ bs, GSplines.SplineObj.run ([newEx 0] ++ [.bin false 1 false 0 true 0]) noSplines = (.ok bs, σ) ∧ eval σ 1 3 = .ok (.ok [6]) := by
  obtain ⟨σ, e, h⟩ := C89_pointwise_partial [newEx 0] _ _ (spline_then_ok (step_newEx _ _) rfl) false false true 1 0 0 exSpline exSpline rfl rfl exSpline_positive.1 rfl rfl rfl rfl
  refine ⟨σ, _, e, ?_⟩
  rw [h 3, exSpline_value]
  simp [bind, Except.bind, pure, Except.pure]
  norm_num

/-- **C89 (partial).** After `x = y` the object `x` evaluates like `y` before, for copies and moves, if both have the same basis, components and lengths. Missing: the lengths of `x` are not assigned, so that it is false without that. -/
theorem C89_assign_partial (p : List Stmt) (bs : List Bool) (E : Env) (h : Spec.SplineObj.run p noValues = some (bs, E)) (ry : Bool) (x y : ℕ) (a b : GSpline) (hx : E x = some a)
    (hy : E y = some b) (hxy : ry = true → x ≠ y) (h1 : b.basis = a.basis) (h2 : b.codim = a.codim) (h3 : b.tau = a.tau) :
    ∃ σ, GSplines.SplineObj.run (p ++ [.assign x ry y]) noSplines = (.ok (bs ++ [false]), σ) ∧ ∀ t, eval σ x t = .ok (b.value t) := by
  have hr : assigned a b = .ok b := by
    unfold assigned
    rw [if_pos ⟨by rw [h1], by rw [h3], h2.symm⟩]
    cases a; cases b
    dsimp only at h1 h2 h3 ⊢
    subst h1 h2 h3; rfl
  have hst : step E (.assign x ry y) = some (.ok ((E.drop ry y).set x (some b))) := by
    have hn : ¬ (ry = true ∧ x = y) := fun e => hxy e.1 e.2
    unfold step
    dsimp only
    rw [hx, hy]
    simp only [Option.bind_eq_bind, Option.bind_some, Option.pure_def, if_neg hn, hr]
    rfl
  obtain ⟨σ, e, hσ⟩ := C89_values _ _ _ (spline_run_snoc h hst)
  exact ⟨σ, e, (hσ x b (by simp [Env.set])).2.2⟩

/-- The hypotheses hold for `x; y; x = std::move(y)` with the example spline on two domains. -/
example : ∃ σ bs, GSplines.SplineObj.run ([newEx 0, newEx0 1] ++ [.assign 0 true 1]) noSplines = (.ok bs, σ) ∧ eval σ 0 3 = .ok (.ok [7]) := by
  obtain ⟨σ, e, h⟩ := C89_assign_partial [newEx 0, newEx0 1] _ _ (spline_then_ok (step_newEx _ _) (spline_then_ok (step_newEx0 _ _) rfl)) true 0 1 exSpline exSpline0 rfl rfl (by simp) rfl rfl rfl
  exact ⟨σ, _, e, by rw [h 3, exSpline0_value]⟩

/-! ## Where values are not enough -/

/-- **C89 is false:** whether the right operand is an rvalue decides the values of a sum, if the operands start at different instants, which is not checked. With the same splines `x` and `y`, `(x + y)(3)` is `6`, but `(x + std::move(y))(3)` is `14`. -/
theorem C89_overload_false : ∃ σ σ' : GSplines.SplineObj.Store,
    GSplines.SplineObj.run [newEx 0, newEx0 1, .bin false 2 false 0 false 1] noSplines = (.ok [false, false, false], σ) ∧
    GSplines.SplineObj.run [newEx 0, newEx0 1, .bin false 2 false 0 true 1] noSplines = (.ok [false, false, false], σ') ∧
    eval σ 2 3 = .ok (.ok [6]) ∧ eval σ' 2 3 = .ok (.ok [14]) := by
  have hs : exSpline.sameVectorSpace exSpline0 = true := C15_same_vector_space_complete _ _ rfl rfl rfl
  have hp : ∀ ry, ∃ E, Spec.SplineObj.run [newEx 0, newEx0 1, .bin false 2 false 0 ry 1] noValues = some ([false, false, false], E) ∧
      E 2 = some { (if (false = false ∧ ry = true) then exSpline0 else exSpline) with coeffs := List.zipWith (num false) exSpline.coeffs exSpline0.coeffs } := fun ry =>
    ⟨_, spline_then_ok (step_newEx _ _) (spline_then_ok (step_newEx0 _ _) (spline_then_ok (step_sum rfl rfl (sum_eq hs)) rfl)), rfl⟩
  obtain ⟨E, h, hE⟩ := hp false
  obtain ⟨E', h', hE'⟩ := hp true
  obtain ⟨σ, e, hσ⟩ := C89_values _ _ _ h
  obtain ⟨σ', e', hσ'⟩ := C89_values _ _ _ h'
  refine ⟨σ, σ', e, e', ?_, ?_⟩
  · obtain ⟨hc, -, hv⟩ := hσ 2 _ hE
    rw [hv 3]
    congr 1
    simp only [Bool.false_eq_true, and_false, if_false] at hc ⊢
    rw [exSpline_value_eq _ 1 rfl hc exSpline_positive rfl 3 exSpline_located]
    simp [curve, piece, comb, num, exSpline0, exSpline, Basis.dim, Finset.sum_range_succ, basisFn, window, vecOf, brk]
    simp [Spec.legendre]
    norm_num
  · obtain ⟨hc, -, hv⟩ := hσ' 2 _ hE'
    rw [hv 3]
    congr 1
    simp only [and_self, if_true] at hc ⊢
    rw [exSpline_value_eq _ 1 rfl hc exSpline_positive rfl 3 exSpline0_located]
    simp [curve, piece, comb, num, exSpline0, exSpline, Basis.dim, Finset.sum_range_succ, basisFn, window, vecOf, brk]
    simp [Spec.legendre]
    norm_num

end GSplines.Props
