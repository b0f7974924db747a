import Verif.Proofs.Uninit
import Verif.Proofs.SobolevMemory
import Verif.Props.Failure

/-!
# C77: what the library returns does not depend on the contents of freshly allocated memory

`jp`, `jw`, `junk`, `buff` are the contents of memory that a function or a constructor allocates without initialising it, in one run; `jp'`, `jw'`, `junk'`, `buff'`
are the contents in another run.
-/

namespace GSplines.Props

open GSplines.Spec GSplines.Colloc GSplines.Uninit GSplines.Optim

/-- **C77.** Collocation: the basis, the constructors, `approximate`, `identity`, the constructor from a function, `norm` and the grid. -/
theorem C77_collocation (jp jw junk jp' jw' junk' : Vec) :
    (∀ n, glBasis n jp jw = glBasis n jp' jw') ∧
    (∀ dom codim nInt nglp co tau, Colloc.mk dom codim nInt nglp co tau jp jw = Colloc.mk dom codim nInt nglp co tau jp' jw') ∧
    (∀ dom codim nInt nglp, mkZero dom codim nInt nglp jp jw = mkZero dom codim nInt nglp jp' jw') ∧
    (∀ f n m, approximate f n m jp jw junk = approximate f n m jp' jw' junk') ∧
    (∀ dom n m, identity dom n m jp jw junk = identity dom n m jp' jw' junk') ∧
    (∀ f nInt nglp, ofFunction f nInt nglp jp jw junk = ofFunction f nInt nglp jp' jw' junk') ∧
    (∀ g, Colloc.norm g jp jw junk = Colloc.norm g jp' jw' junk') ∧
    (∀ g, discretization g jp jw junk = discretization g jp' jw' junk') :=
  ⟨fun n => glBasis_eq n jp jw jp' jw', fun a b c d e f => mk_eq a b c d e f jp jw jp' jw', fun a b c d => mk_eq a b c d _ _ jp jw jp' jw',
    fun f n m => approximate_eq f n m jp jw junk jp' jw' junk', fun dom n m => approximate_eq _ n m jp jw junk jp' jw' junk', fun f n m => approximate_eq f n m jp jw junk jp' jw' junk',
    fun g => norm_eq g jp jw junk jp' jw' junk', fun g => discretization_eq g jp jw junk jp' jw' junk'⟩

/-- The two runs do return something: with two points there is a basis. -/
example (jp jw : Vec) : glBasis 2 jp jw = .ok (.lagrange [-1, 1]) := by
  unfold glBasis GLL.pointsWeights
  rw [if_neg (by norm_num), if_pos rfl, GLL.ok_bind]
  norm_num [List.range, List.range.loop, setAt, pure, Except.pure]

/-- **C77.** Integrals, inner products and norms of function expressions, and the integral along a path. -/
theorem C77_integrals (jp jw jp' jw' : Vec) :
    (∀ (f : Fn) n k, f.integral n k jp jw = f.integral n k jp' jw') ∧
    (∀ (f g : Fn) l n k, f.semiInner g l n k jp jw = f.semiInner g l n k jp' jw') ∧
    (∀ (f : Fn) l n k, f.semiNorm l n k jp jw = f.semiNorm l n k jp' jw') ∧
    (∀ (f g : Fn) deg n k, f.sobolevInner g deg n k jp jw = f.sobolevInner g deg n k jp' jw') ∧
    (∀ (f : Fn) deg n k, f.sobolevNorm deg n k jp jw = f.sobolevNorm deg n k jp' jw') ∧
    (∀ (f : Fn) n k, f.l2Norm n k jp jw = f.l2Norm n k jp' jw') ∧
    (∀ (f g : Fn) n k, f.l2Inner g n k jp jw = f.l2Inner g n k jp' jw') ∧
    (∀ d p, pathIntegral d p jp jw = pathIntegral d p jp' jw') :=
  ⟨fun f n k => integral_eq f n k jp jw jp' jw', fun f g l n k => semiInner_eq f g l n k jp jw jp' jw', fun f l n k => semiInner_eq f f l n k jp jw jp' jw',
    fun f g d n k => semiInner_eq f g _ n k jp jw jp' jw', fun f d n k => semiInner_eq f f _ n k jp jw jp' jw', fun f n k => semiInner_eq f f _ n k jp jw jp' jw',
    fun f g n k => semiInner_eq f g _ n k jp jw jp' jw', fun d p => pathIntegral_eq d p jp jw jp' jw'⟩

/-- The integral exists in both runs: two points, one interval, the constant 3 on an interval of length 2. -/
example (jp jw : Vec) : (Fn.const (0, 2) [3]).integral 2 1 jp jw = .ok 6 := by
  unfold Fn.integral GLL.pointsWeights
  rw [if_neg (by simp [Fn.codim]), if_neg (by norm_num), if_pos rfl, GLL.ok_bind]
  norm_num [forLoopM, Fn.integralStep, Fn.run, Fn.dom, List.range, List.range.loop, setAt, pure, Except.pure, bind, Except.bind, List.range']

/-- **C77.** The functionals of the collocation classes: derivatives, multiplications, continuity errors, and the result of a functional on a spline. -/
theorem C77_functionals (jp jw junk jp' jw' junk' : Vec) :
    (∀ (L : LF) g, L.actOn g jp jw = L.actOn g jp' jw') ∧
    (∀ codim nglp tau deg, Deriv.ofLengths codim nglp tau deg jp jw = Deriv.ofLengths codim nglp tau deg jp' jw') ∧
    (∀ dom codim nglp nInt deg, Deriv.ofDomain dom codim nglp nInt deg jp jw = Deriv.ofDomain dom codim nglp nInt deg jp' jw') ∧
    (∀ g, Deriv.ofSpline g jp jw = Deriv.ofSpline g jp' jw') ∧
    (∀ (T : TLM) f, T.assignFn f jp jw junk = T.assignFn f jp' jw' junk') ∧
    (∀ g deg cc, ContErr.ofSpline g deg cc jp jw = ContErr.ofSpline g deg cc jp' jw') ∧
    (∀ nglp tau codim deg, ContErr.ofLengths nglp tau codim deg jp jw = ContErr.ofLengths nglp tau codim deg jp' jw') :=
  ⟨fun L g => actOn_eq L g jp jw jp' jw', fun a b c d => derivLengths_eq a b c d jp jw jp' jw', fun _ b c _ e => derivLengths_eq b c _ e jp jw jp' jw',
    fun _ => derivLengths_eq _ _ _ _ jp jw jp' jw', fun T f => tlmAssign_eq T f jp jw junk jp' jw' junk', fun g d c => contSpline_eq g d c jp jw jp' jw',
    fun a b c d => contLengths_eq a b c d jp jw jp' jw'⟩

/-- **C77.** The `Integral` functional, constructed and updated: the same failures, the same sizes and the same entries. -/
theorem C77_integral_functional (jp jw junk jp' jw' junk' : Vec) :
    (∀ dom nglp n, SameRes SameInteg (Integ.ofDomain dom nglp n jp jw junk) (Integ.ofDomain dom nglp n jp' jw' junk')) ∧
    (∀ g, SameRes SameInteg (Integ.ofSpline g jp jw junk) (Integ.ofSpline g jp' jw' junk')) ∧
    (∀ I J, SameInteg I J → ∀ dom nglp n, SameRes SameInteg (I.update dom nglp n jp jw junk) (J.update dom nglp n jp' jw' junk')) ∧
    (∀ I J, SameInteg I J → ∀ tau, SameRes SameInteg (I.updateLengths tau jp jw junk) (J.updateLengths tau jp' jw' junk')) ∧
    (∀ A B : LF, SameLF A B → ∀ g, A.call g = B.call g) :=
  ⟨fun a b c => ofDomain_same a b c jp jw junk jp' jw' junk', fun _ => ofDomain_same _ _ _ jp jw junk jp' jw' junk', fun _ _ h a b c => update_same h a b c jp jw junk jp' jw' junk',
    fun _ _ h t => updateLengths_same h t jp jw junk jp' jw' junk', fun _ _ h g => apply_same h g.coeffs⟩

/-- **C77.** `SobolevDistance`: two objects constructed from the same function give the same values and the same differentials, although the matrix of the
differential is not initialised by the constructor. -/
theorem C77_distance (f : Fn) (nglp nInt deg : ℕ) (jp jw junk : Vec) (jd : Mat) (jp' jw' junk' : Vec) (jd' : Mat) :
    SameRes (fun s t => (∀ g, s.call g jp jw = t.call g jp' jw') ∧
        ∀ g, SameRes (fun s t => SameLF s.diff t.diff ∧ ∀ g, s.call g jp jw = t.call g jp' jw') (s.differential g jp jw) (t.differential g jp' jw'))
      (SobDist.make f nglp nInt deg jp jw junk jd) (SobDist.make f nglp nInt deg jp' jw' junk' jd') := by
  rcases make_same f nglp nInt deg jp jw junk jd jp' jw' junk' jd' with h | ⟨s, t, h1, h2, h3⟩
  · exact .inl h
  · refine .inr ⟨s, t, h1, h2, fun g => call_same h3 g jp jw jp' jw', fun g => ?_⟩
    rcases differential_same h3 g jp jw jp' jw' with h | ⟨x, y, k1, k2, k3, k4⟩
    · exact .inl h
    · exact .inr ⟨x, y, k1, k2, k4, fun g => call_same k3 g jp jw jp' jw'⟩

/-- **C77.** `change_interpolation_points`: every entry of the result is assigned. -/
theorem C77_change_points (n m : ℕ) (old new : Vec) (junk junk' : Mat) (k : ℕ) (hk : k < m) (j : ℕ) (hj : j < n) :
    Lagrange.changePoints n m old new junk k j = Lagrange.changePoints n m old new junk' k j := changePoints_same n m old new junk junk' hk hj

/-- **C77.** The free functions `interpolate`, `pw_polynomial_interpolation` and the random splines. -/
theorem C77_interpolate (lu : LU) (junk junk' : Vec) :
    (∀ tau w b, interpolateFn lu junk tau w b = interpolateFn lu junk' tau w b) ∧
    (∀ tau w nc, pwPolynomialInterpolation lu junk tau w nc = pwPolynomialInterpolation lu junk' tau w nc) ∧
    (∀ draw dom codim b, randomGspline lu junk draw dom codim b = randomGspline lu junk' draw dom codim b) ∧
    (∀ draw dom codim, randomGspline2 lu junk draw dom codim = randomGspline2 lu junk' draw dom codim) := by
  refine ⟨fun t w b => interpolateFn_eq lu junk junk' t w b, fun t w _ => interpolateFn_eq lu junk junk' t w _, fun d dom c b => ?_, fun d dom c => ?_⟩
  · unfold randomGspline; dsimp only; rw [interpolateFn_eq lu junk junk']
  · unfold randomGspline2 randomGspline; dsimp only; rw [interpolateFn_eq lu junk junk']

/-- **C77** (part: the calls of `get_coeff_derivative_wrt_tau` have the number of an interval and as many lengths as intervals). Two interpolators constructed with
the same arguments give the same answers to every list of calls, calls that throw included. -/
theorem C77_interpolator_partial (lu : LU) (codim n : ℕ) (b : Basis) (junk junk' : Vec) (s t : Interp) (hs : Interp.make codim n b junk = .ok s)
    (ht : Interp.make codim n b junk' = .ok t) (l : List ICall) (hl : ∀ a ∈ l, a.InRange n) : ianswers lu s l = ianswers lu t l := by
  unfold Interp.make at hs ht
  split_ifs at hs ht
  cases hs
  cases ht
  exact (ianswers_coef lu l ⟨b, codim, n, Mat.zero, fun _ => 0, junk, fun _ => Mat.zero, []⟩ junk' hl).symm

/-- Two such objects, and such calls. -/
example : (∃ s, Interp.make 1 2 (.legendre 4) (fun _ => 0) = .ok s) ∧ (∃ t, Interp.make 1 2 (.legendre 4) (fun _ => 5) = .ok t) ∧
    ∀ a ∈ [ICall.solve [1, 1] ⟨3, 1, fun _ _ => 1⟩, .coeff (List.replicate 8 1) [1, 1] 1, .interpolate [1] ⟨3, 1, fun _ _ => 1⟩], a.InRange 2 :=
  ⟨⟨_, rfl⟩, ⟨_, rfl⟩, by simp [ICall.InRange]⟩

/-- **C77** (where it fails): asked for the derivative with respect to an interval that does not exist, a new interpolator answers with the memory that it was given. -/
theorem C77_interpolator_false (lu : LU) (codim n : ℕ) (b : Basis) (junk : Vec) (s : Interp) (hs : Interp.make codim n b junk = .ok s) (y tau : List ℝ) (idx : ℕ)
    (ht : ∀ t ∈ tau, 1 / 10 ^ 6 ≤ t) (hidx : n ≤ idx) : ianswers lu s [.coeff y tau idx] = [.vector (.ok ((List.range (b.dim * codim * n)).map junk))] := by
  unfold Interp.make at hs
  split_ifs at hs
  cases hs
  have h1 : ¬ ∃ x ∈ tau, x < 1 / 10 ^ 6 := by
    rintro ⟨x, hx, h⟩
    exact absurd (ht x hx) (not_le.mpr h)
  simp only [ianswers, ICall.run, Failure.coeff, if_neg h1, if_pos (Or.inr hidx : tau.length ≠ n ∨ n ≤ idx)]
  rfl

/-- Two objects that differ only in this memory answer differently. -/
example (lu : LU) : ∃ s t, Interp.make 1 1 (.legendre 2) (fun _ => 0) = .ok s ∧ Interp.make 1 1 (.legendre 2) (fun _ => 1) = .ok t ∧
    ianswers lu s [.coeff [0, 0] [1] 1] ≠ ianswers lu t [.coeff [0, 0] [1] 1] := by
  refine ⟨_, _, rfl, rfl, ?_⟩
  rw [C77_interpolator_false lu 1 1 (.legendre 2) (fun _ => 0) _ rfl [0, 0] [1] 1 (by intro t h; simp at h; subst h; norm_num) le_rfl,
    C77_interpolator_false lu 1 1 (.legendre 2) (fun _ => 1) _ rfl [0, 0] [1] 1 (by intro t h; simp at h; subst h; norm_num) le_rfl]
  simp [Basis.dim, List.range, List.range.loop]

/-- **C77** (part: the basis is not a Lagrange basis, or the memory of the basis is the same). Two `SobolevNorm` objects constructed with the same arguments give the
same answers to every list of calls, calls that throw included; buffers that a call leaves half written are the same too. -/
theorem C77_sobolev_partial (lu : LU) (w : Pts) (b : Basis) (weights : List (ℕ × ℝ)) (mem mem' : LagMem) (junk junk' : Vec) (s t : Sobolev)
    (hs : Sobolev.make w b weights mem junk = .ok s) (ht : Sobolev.make w b weights mem' junk' = .ok t) (hm : ∀ x, b = .lagrange x → mem' = mem) (l : List SCall) :
    sanswers lu s l = sanswers lu t l := (sanswers_same lu l (make_sob hm hs ht)).symm

/-- Two such objects. -/
example : (∃ s, Sobolev.make ⟨3, 1, fun _ _ => 1⟩ (.legendre 4) [(2, 1)] ⟨fun _ => 0, Mat.zero⟩ (fun _ => 0) = .ok s) ∧
    (∃ s, Sobolev.make ⟨3, 1, fun _ _ => 1⟩ (.legendre 4) [(2, 1)] ⟨fun _ => 1, Mat.id⟩ (fun _ => 7) = .ok s) ∧
    ∀ x, Basis.legendre 4 = .lagrange x → (⟨fun _ => 1, Mat.id⟩ : LagMem) = ⟨fun _ => 0, Mat.zero⟩ := ⟨⟨_, rfl⟩, ⟨_, rfl⟩, fun x h => by cases h⟩

/-- **C77** (where it fails): way points 0, 0, 1, four equidistant Lagrange nodes and order 0. The value of a new object at the lengths 1 and 1 is larger by 5/27 if the
memory that the constructor of the basis leaves unassigned contains a 1 in row 1 and column 3 instead of a 0. -/
theorem C77_sobolev_false (lu : LU) (hlu : LUContract lu) (w junk junk' : Vec) (s t : Sobolev)
    (hs : Sobolev.make ⟨3, 1, fun i _ => if i = 2 then 1 else 0⟩ (.lagrange [-1, -1 / 3, 1 / 3, 1]) [(0, 1)] ⟨w, fun _ _ => 0⟩ junk = .ok s)
    (ht : Sobolev.make ⟨3, 1, fun i _ => if i = 2 then 1 else 0⟩ (.lagrange [-1, -1 / 3, 1 / 3, 1]) [(0, 1)] ⟨w, fun i j => if i = 1 ∧ j = 3 then 1 else 0⟩ junk' = .ok t) :
    ∃ r : ℝ, sanswers lu s [.cost [1, 1]] = [.value (.ok r)] ∧ sanswers lu t [.cost [1, 1]] = [.value (.ok (r + 5 / 27))] := by
  obtain ⟨r, ⟨s', h1⟩, ⟨t', h2⟩⟩ := Sobolev.cost_memory hlu w (.make hs) (.make ht)
  rw [← Failure.cost_drop] at h1 h2
  refine ⟨r, ?_, ?_⟩
  · simp only [sanswers, SCall.run]
    rcases hc : Failure.cost lu [1, 1] s with ⟨a, _ | b⟩
    · rw [hc] at h1; cases h1
    · rw [hc] at h1; cases h1; rfl
  · simp only [sanswers, SCall.run]
    rcases hc : Failure.cost lu [1, 1] t with ⟨a, _ | b⟩
    · rw [hc] at h2; cases h2
    · rw [hc] at h2; cases h2; rfl

/-- Such objects exist. -/
example (w : Vec) : (∃ s, Sobolev.make ⟨3, 1, fun i _ => if i = 2 then 1 else 0⟩ (.lagrange [-1, -1 / 3, 1 / 3, 1]) [(0, 1)] ⟨w, fun _ _ => 0⟩ (fun _ => 0) = .ok s) ∧
    ∃ t, Sobolev.make ⟨3, 1, fun i _ => if i = 2 then 1 else 0⟩ (.lagrange [-1, -1 / 3, 1 / 3, 1]) [(0, 1)]
      ⟨w, fun i j => if i = 1 ∧ j = 3 then 1 else 0⟩ (fun _ => 0) = .ok t := ⟨⟨_, rfl⟩, ⟨_, rfl⟩⟩

/-- **C77** (part: the basis is not a Lagrange basis, or its memory is the same). The cost term of the optimisation problem: the answers to every list of calls of the
solver, whatever the constructor leaves in `buff_2_`. -/
theorem C77_cost_term_partial (lu : LU) (w : Pts) (b : Basis) (weights : List (ℕ × ℝ)) (mem mem' : LagMem) (junk buff junk' buff' : Vec) (c d : CostTerm)
    (hc : CostTerm.make w b weights mem junk buff = .ok c) (hd : CostTerm.make w b weights mem' junk' buff' = .ok d) (hm : ∀ x, b = .lagrange x → mem' = mem)
    (l : List TCall) : tanswers lu c l = tanswers lu d l := (tanswers_same lu l (make_term hm hc hd)).symm

/-- **C77.** The optimisers: if the solver knows the cost term only from its answers, then the result does not depend on uninitialised memory. -/
theorem C77_optimisers (lu : LU) (solver : Solver) (hs : BlackBox lu solver) (st : Option Options) (mem mem' : Memory) (w : Pts) :
    brokenLinesPath lu solver st mem w = brokenLinesPath lu solver st mem' w ∧
    minimumAccelerationPath lu solver st mem w = minimumAccelerationPath lu solver st mem' w ∧
    minimumJerkPath lu solver st mem w = minimumJerkPath lu solver st mem' w ∧
    minimumSnapPath lu solver st mem w = minimumSnapPath lu solver st mem' w ∧
    minimumCracklePath lu solver st mem w = minimumCracklePath lu solver st mem' w ∧
    (∀ k, rojasPath lu solver st mem w k = rojasPath lu solver st mem' w k) ∧
    ∀ b weights exec, (∀ x, b ≠ .lagrange x) → optimalSobolevNorm lu solver st mem w b weights exec = optimalSobolevNorm lu solver st mem' w b weights exec := by
  have key : ∀ b weights exec, (∀ x, b ≠ Basis.lagrange x) → optimalSobolevNorm lu solver st mem w b weights exec = optimalSobolevNorm lu solver st mem' w b weights exec :=
    fun b weights exec hb => optimal_same hs st mem mem' w b weights exec fun x hx => absurd hx (hb x)
  refine ⟨?_, ?_, ?_, ?_, ?_, fun k => ?_, key⟩
  · unfold brokenLinesPath; rw [key _ _ _ fun x h => by cases h]
  · unfold minimumAccelerationPath; rw [key _ _ _ fun x h => by cases h]
  · unfold minimumJerkPath; rw [key _ _ _ fun x h => by cases h]
  · unfold minimumSnapPath; rw [key _ _ _ fun x h => by cases h]
  · unfold minimumCracklePath; rw [key _ _ _ fun x h => by cases h]
  · unfold rojasPath; dsimp only; rw [key _ _ _ fun x h => by cases h]

/-- A solver that evaluates the cost at the start and gives up if it fails, and otherwise takes the start as the solution. -/
example (lu : LU) : BlackBox lu ⟨fun _ p => match tanswers lu p.cost [.cost p.var] with
    | [.ok _] => .ok (0, p.var.values)
    | _ => .ok (-1, [])⟩ := by
  intro opts p q h1 h2 h3
  simp only [h3, h1]

end GSplines.Props
