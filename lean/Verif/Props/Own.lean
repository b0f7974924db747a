import Verif.Proofs.Own
import Verif.Props.FnOps

/-!
# C78: function expressions as objects that own their parts

The specification is Spec/Own.lean: programs in which variables hold functions. The model is Model/Own.lean: the same programs on objects with pointers.
-/

namespace GSplines.Props

open GSplines.Own Spec.Own
open GSplines.Spec (Built addRows)

/-- No objects. -/
def noObjects : Store := fun _ => none

/-- No variables. -/
def noFunctions : Env := fun _ => none

/-! ## Programs give the functions that they describe -/

/-- **C78 (partial).** Take any program of constructions, copies, moves, sums, differences, products, compositions, concatenations and in-place operations, with any combination of lvalue and
rvalue operands, that never uses a variable after it was moved from. On the objects it throws at the same statements as on functions, ends, dereferences no empty pointer, and every variable that was not moved
from evaluates to its function. Missing: statements that name the same object twice (`Safe`); they are wrong in the cases below. -/
theorem C78_values_partial (p : List Stmt) (hp : ∀ s ∈ p, Safe s) (bs : List Bool) (E : Env) (h : Spec.Own.run p noFunctions = some (.ok (bs, E))) :
    ∃ σ, Own.run p noObjects = (.ok bs, σ) ∧ ∀ x f, E x = some f → ∀ ts, eval σ x ts = .ok (f.call ts) := by
  obtain ⟨σ, e, hR⟩ := (run_refines p noObjects noFunctions hp (fun x f h => by simp [noFunctions] at h)).1 bs E h
  exact ⟨σ, e, fun x f hx ts => eval_of_is (hR x f hx) ts⟩

/-- A failed assertion ends both programs. -/
theorem C78_assertion_partial (p : List Stmt) (hp : ∀ s ∈ p, Safe s) (e : Err) (h : Spec.Own.run p noFunctions = some (.error e)) :
    ∃ σ, Own.run p noObjects = (.error (.thrown e), σ) :=
  (run_refines p noObjects noFunctions hp (fun x f h => by simp [noFunctions] at h)).2 e h

section examples

theorem then_ok {s : Stmt} {p : List Stmt} {E E' E'' : Env} {bs : List Bool} (h : step E s = some (.ok E')) (h' : Spec.Own.run p E' = some (.ok (bs, E''))) :
    Spec.Own.run (s :: p) E = some (.ok (false :: bs, E'')) := by
  rw [Spec.Own.run, h]; dsimp only; rw [h']; rfl

theorem then_throw {s : Stmt} {p : List Stmt} {E E'' : Env} {bs : List Bool} (h : step E s = some (.error .invalidArgument))
    (h' : Spec.Own.run p E = some (.ok (bs, E''))) : Spec.Own.run (s :: p) E = some (.ok (true :: bs, E'')) := by
  rw [Spec.Own.run, h]; dsimp only; rw [h']; rfl

theorem step_bin {op : Op} {z x y : ℕ} {rx ry : Bool} {E : Env} {f g h : Fn} (hx : E x = some f) (hy : E y = some g) (hh : opFn op rx ry f g = .ok h) :
    step E (.bin op z rx x ry y) = some (.ok (((E.drop rx x).drop ry y).set z (some h))) := by
  simp [step, hx, hy, hh, Except.map]

theorem step_bin_throw {op : Op} {z x y : ℕ} {rx ry : Bool} {E : Env} {f g : Fn} {e : Err} (hx : E x = some f) (hy : E y = some g)
    (hh : opFn op rx ry f g = .error e) : step E (.bin op z rx x ry y) = some (.error e) := by
  simp [step, hx, hy, hh, Except.map]

theorem same01 (f g : Fn) (hf : f.dom = (0, 1)) (hg : g.dom = (0, 1)) : Fn.sameDomain f g := by
  unfold Fn.sameDomain; rw [hf, hg]; norm_num [tol9]

/-- `e = exp; c = cos; s = std::move(e) + c; q = c * std::move(s)`, and a sum that throws. -/
def sample : List Stmt :=
  [.new 0 (.exp (0, 1)), .new 1 (.cos (0, 1)), .new 5 (.cos (4, 5)), .bin .add 6 false 1 true 5, .bin .add 2 true 0 false 1, .bin .mul 3 false 1 true 2]

/-- The hypotheses hold for a program with copies, moves and an exception: the variables `1`, `3` and `5` hold functions at the end; `5` was passed as an rvalue to the operation that threw. -/
example : (∀ s ∈ sample, Safe s) ∧ ∃ E q, Spec.Own.run sample noFunctions = some (.ok ([false, false, false, true, false, false], E)) ∧
    E 0 = none ∧ E 2 = none ∧ E 1 = some (Fn.cos (0, 1)).wrap ∧ E 5 = some (Fn.cos (4, 5)).wrap ∧ E 3 = some q ∧ q.call [0] = .ok [[2]] := by
  refine ⟨by simp [sample, Safe], ?_⟩
  have h1 : Fn.add (Fn.cos (0, 1)).wrap (Fn.cos (4, 5)).wrap = .error .invalidArgument := by
    unfold Fn.add
    rw [if_pos]
    simp only [Fn.sameDomain, Fn.wrap, Fn.dom]; norm_num [tol9]
  have h2 : Fn.add (Fn.exp (0, 1)).wrap (Fn.cos (0, 1)).wrap = .ok (.expr (0, 1) 1 .sum [.exp (0, 1), .cos (0, 1)]) := by
    unfold Fn.add
    rw [if_neg (not_not.2 (same01 _ _ rfl rfl)), if_neg (by simp [Fn.wrap, Fn.codim])]; rfl
  have h3 : Fn.mul ⟨false, true⟩ (Fn.cos (0, 1)).wrap (.expr (0, 1) 1 .sum [.exp (0, 1), .cos (0, 1)]) =
      .ok (.expr (0, 1) 1 .mul [.cos (0, 1), .expr (0, 1) 1 .sum [.exp (0, 1), .cos (0, 1)]]) := by
    unfold Fn.mul
    rw [if_neg (not_not.2 (same01 _ _ rfl rfl)), if_neg (by simp [Fn.wrap, Fn.codim])]
    simp [Fn.wrap, Fn.codim, Fn.dom, Fn.splice, Fn.parts, Fn.clone]
  refine ⟨_, _, then_ok rfl (then_ok rfl (then_ok rfl (then_throw (step_bin_throw rfl rfl h1) (then_ok (step_bin rfl rfl h2) (then_ok (step_bin rfl rfl h3) rfl))))),
    rfl, rfl, rfl, rfl, rfl, ?_⟩
  simp [Fn.call, Fn.codim, Fn.run, Fn.evs, Fn.evalTy, Fn.evalMul, Fn.evalSum, Fn.scalarRun, bind, Except.bind, pure, Except.pure, one_add_one_eq_two]

end examples

/-! ## What a statement does not change -/

/-- **C78.** An object that a statement neither defines nor gets as an rvalue is not changed by it, whatever happens: in every state, also if the statement throws. -/
theorem C78_unchanged (s : Stmt) (σ : Store) (w : ℕ) (h : ¬ Touches w s) : (s.run σ).2 w = σ w := keeps_stmt s σ w h

/-- **C78.** If a statement throws `invalid_argument`, no object has changed, not even those passed as rvalues; this holds in every state. -/
theorem C78_throw (s : Stmt) (σ σ' : Store) (h : s.run σ = (.error (.thrown .invalidArgument), σ')) : σ' = σ := clean_stmt s σ σ' h

/-- The hypotheses hold for `auto z = std::move(x) - std::move(y)` with functions on different domains. -/
example : ∃ σ σ' : Store, (∃ o, σ 0 = some o ∧ o.arr ≠ []) ∧ (Stmt.bin .sub 2 true 0 true 1).run σ = (.error (.thrown .invalidArgument), σ') ∧
    ¬ Touches 7 (.bin .sub 2 true 0 true 1) := by
  let f : Obj := ⟨(0, 1), 1, .unique, [.leaf (.exp (0, 1))]⟩
  let g : Obj := ⟨(4, 5), 1, .unique, [.leaf (.cos (4, 5))]⟩
  have h : ¬ f.sameDomain g := by simp only [Obj.sameDomain, f, g]; norm_num [tol9]
  have hx : (update (update noObjects 1 g) 0 f) 0 = some f := rfl
  have hy : (update (update noObjects 1 g) 0 f) 1 = some g := rfl
  refine ⟨update (update noObjects 1 g) 0 f, update (update noObjects 1 g) 0 f, ⟨f, rfl, by simp [f]⟩, ?_, by simp [Touches]⟩
  show (Own.sub true true 0 1 >>= fun o => put 2 o) _ = _
  have : Own.sub true true 0 1 (update (update noObjects 1 g) 0 f) = (.error (.thrown .invalidArgument), update (update noObjects 1 g) 0 f) := by
    unfold Own.sub
    rw [bind_ok (get_some _ hx), bind_ok (get_some _ hy), bind_app, sumThrow, if_pos h]; rfl
  rw [bind_app, this]

/-! ## The same object twice, as an lvalue -/

/-- **C78.** `x += x` doubles the function of `x`: in every state that a program as above reaches. -/
theorem C78_self_add (p : List Stmt) (hp : ∀ s ∈ p, Safe s) (bs : List Bool) (E : Env) (h : Spec.Own.run p noFunctions = some (.ok (bs, E))) (x : ℕ) (f : Fn)
    (hx : E x = some f) (hf : Built f) :
    ∃ σ, Own.run (p ++ [.inPlace .sum x false x]) noObjects = (.ok (bs ++ [false]), σ) ∧
      ∀ ts z, eval σ x ts = .ok (.ok z) ↔ ∃ v, f.call ts = .ok v ∧ z = addRows v v := by
  obtain ⟨σ, e, hR⟩ := (run_refines p noObjects noFunctions hp (fun x f h => by simp [noFunctions] at h)).1 bs E h
  obtain ⟨σ', e', hI⟩ := inPlace_self .sum (hR x f hx)
  refine ⟨σ', run_snoc p e e', fun ts z => ?_⟩
  rw [eval_of_is hI, Except.ok.injEq]
  have := Fn.call_addInPlace (Fn.wf_of_built hf) (g := .expr f.dom f.codim .sum (Fn.splice .sum f)) rfl ts z
  rw [Fn.addInPlace] at this
  rw [this]
  simp only [call_retype_sum (Fn.wf_of_built hf)]
  constructor
  · rintro ⟨a, b, ha, hb, rfl⟩
    obtain rfl := Except.ok.inj (ha.symm.trans hb)
    exact ⟨a, ha, rfl⟩
  · rintro ⟨v, hv, rfl⟩; exact ⟨v, v, hv, hv, rfl⟩

/-- **C78.** `x *= x` squares the function of `x`, if it has one component. -/
theorem C78_self_mul (p : List Stmt) (hp : ∀ s ∈ p, Safe s) (bs : List Bool) (E : Env) (h : Spec.Own.run p noFunctions = some (.ok (bs, E))) (x : ℕ) (f : Fn)
    (hx : E x = some f) (hf : Built f) (hc : f.codim = 1) :
    ∃ σ, Own.run (p ++ [.inPlace .mul x false x]) noObjects = (.ok (bs ++ [false]), σ) ∧
      ∀ ts z, eval σ x ts = .ok (.ok z) ↔ ∃ v, f.call ts = .ok v ∧ z = v.map fun r => r.map (· * r.headD 0) := by
  obtain ⟨σ, e, hR⟩ := (run_refines p noObjects noFunctions hp (fun x f h => by simp [noFunctions] at h)).1 bs E h
  obtain ⟨σ', e', hI⟩ := inPlace_self .mul (hR x f hx)
  refine ⟨σ', run_snoc p e e', fun ts z => ?_⟩
  rw [eval_of_is hI, Except.ok.injEq]
  have := Fn.call_mulInPlace (Fn.wf_of_built hf) (g := .expr f.dom f.codim .mul (Fn.splice .mul f)) hc ts z
  rw [Fn.mulInPlace] at this
  rw [this]
  simp only [call_retype_mul (Fn.wf_of_built hf)]
  have hz : ∀ v : Rows, Fn.scaleRows v v = v.map fun r => r.map (· * r.headD 0) := by
    intro v
    unfold Fn.scaleRows
    rw [List.zipWith_self]
  constructor
  · rintro ⟨a, b, ha, hb, rfl⟩
    obtain rfl := Except.ok.inj (ha.symm.trans hb)
    exact ⟨a, ha, hz a⟩
  · rintro ⟨v, hv, rfl⟩; exact ⟨v, v, hv, hv, (hz v).symm⟩

/-- The hypotheses hold for `x = exp; x += x`, and the value at `0` becomes `2`. -/
example : ∃ σ bs, Own.run ([.new 0 (.exp (0, 1))] ++ [.inPlace .sum 0 false 0]) noObjects = (.ok bs, σ) ∧ eval σ 0 [0] = .ok (.ok [[2]]) := by
  obtain ⟨σ, e, h⟩ := C78_self_add [.new 0 (.exp (0, 1))] (by simp [Safe]) _ _ (then_ok rfl rfl) 0 (Fn.exp (0, 1)).wrap rfl (.wrap (.exp _))
  refine ⟨σ, _, e, (h [0] [[2]]).2 ⟨[[1]], ?_, by norm_num [addRows]⟩⟩
  simp [Fn.call, Fn.wrap, Fn.codim, Fn.run, Fn.evs, Fn.evalTy, Fn.evalUnique, Fn.scalarRun, Fn.clone]

/-! ## The same object twice, moved from and used

The following programs use no variable after a statement that moves from it, but they move from an object in the statement that also uses it. -/

/-- `exp`, as the object that `FunctionExpression x(Exponential({a, b}))` makes. -/
def expObj (d : ℝ × ℝ) : Obj := ⟨d, 1, .unique, [.leaf (.exp d)]⟩

theorem new_exp (d : ℝ × ℝ) (z : ℕ) (σ : Store) : (Stmt.new z (.exp d)).run σ = (.ok (), update σ z (expObj d)) := rfl

theorem same_self (o : Obj) : o.sameDomain o := by simp only [Obj.sameDomain, sub_self, abs_zero]; norm_num [tol9]

theorem same_self_fn (f : Fn) : f.sameDomain f := by simp only [Fn.sameDomain, sub_self, abs_zero]; norm_num [tol9]

theorem add_exp : Fn.add (Fn.exp (0, 1)).wrap (Fn.exp (0, 1)).wrap = .ok (.expr (0, 1) 1 .sum [.exp (0, 1), .exp (0, 1)]) := by
  unfold Fn.add
  rw [if_neg (not_not.2 (same_self_fn _)), if_neg (not_not.2 rfl)]; rfl

theorem expObj_clones (d : ℝ × ℝ) : clones (expObj d).arr = .ok (expObj d).arr := clones_cons_ok.2 ⟨rfl, rfl⟩

/-- **C78 is false.** `auto z = std::move(x) + x` dereferences an empty pointer. -/
theorem C78_move_and_copy_false : ∃ (bs : List Bool) (E : Env) (σ : Store),
    Spec.Own.run [.new 0 (.exp (0, 1)), .bin .add 1 true 0 false 0] noFunctions = some (.ok (bs, E)) ∧
    Own.run [.new 0 (.exp (0, 1)), .bin .add 1 true 0 false 0] noObjects = (.error .nullDeref, σ) := by
  refine ⟨_, _, update (update noObjects 0 (expObj (0, 1))) 0 { expObj (0, 1) with arr := [.null] }, then_ok rfl (then_ok (step_bin rfl rfl add_exp) rfl), ?_⟩
  refine run_ok_stop (new_exp _ _ _) (run_stop ?_ (by simp))
  show (Own.add true false 0 0 >>= fun o => put 1 o) _ = _
  have hx : (update noObjects 0 (expObj (0, 1))) 0 = some (expObj (0, 1)) := rfl
  rw [bind_app]
  unfold Own.add
  rw [bind_ok (get_some _ hx), bind_ok (get_some _ hx), bind_ok (sumThrow_ok (same_self _) rfl _)]
  rfl

/-- **C78 is false.** `auto z = std::move(x) + std::move(x)` gives an object with an empty pointer, which `z(t)` dereferences; the sum of the functions is `2` at `0`. -/
theorem C78_move_twice_false : ∃ (bs : List Bool) (E : Env) (h : Fn) (σ : Store),
    Spec.Own.run [.new 0 (.exp (0, 1)), .bin .add 1 true 0 true 0] noFunctions = some (.ok (bs, E)) ∧ E 1 = some h ∧ h.call [0] = .ok [[2]] ∧
    Own.run [.new 0 (.exp (0, 1)), .bin .add 1 true 0 true 0] noObjects = (.ok bs, σ) ∧ eval σ 1 [0] = .error .nullDeref := by
  refine ⟨_, _, _, update (update (update (update noObjects 0 (expObj (0, 1))) 0 { expObj (0, 1) with arr := [.null] }) 0 { expObj (0, 1) with arr := [.null] }) 1
      ⟨(0, 1), 1, .sum, [.leaf (.exp (0, 1)), .null]⟩, then_ok rfl (then_ok (step_bin rfl rfl add_exp) rfl), rfl, ?_, run_ok (new_exp _ _ _) (run_ok ?_ rfl), ?_⟩
  · simp [Fn.call, Fn.codim, Fn.run, Fn.evs, Fn.evalTy, Fn.evalSum, Fn.scalarRun, bind, Except.bind, pure, Except.pure, one_add_one_eq_two]
  · show (Own.add true true 0 0 >>= fun o => put 1 o) _ = _
    have hx : (update noObjects 0 (expObj (0, 1))) 0 = some (expObj (0, 1)) := rfl
    rw [bind_app]
    unfold Own.add
    rw [bind_ok (get_some _ hx), bind_ok (get_some _ hx), bind_ok (sumThrow_ok (same_self _) rfl _)]
    rfl
  · exact eval_of_null rfl rfl _

/-- **C78 is false.** After `x += std::move(x)` the value of `x` is the old one; the sum of the functions is `2` at `0`. -/
theorem C78_self_add_move_false : ∃ (bs : List Bool) (E : Env) (h : Fn) (σ : Store),
    Spec.Own.run [.new 0 (.exp (0, 1)), .inPlace .sum 0 true 0] noFunctions = some (.ok (bs, E)) ∧ E 0 = some h ∧ h.call [0] = .ok [[2]] ∧
    Own.run [.new 0 (.exp (0, 1)), .inPlace .sum 0 true 0] noObjects = (.ok bs, σ) ∧ eval σ 0 [0] = .ok (.ok [[1]]) := by
  refine ⟨_, _, _, _, then_ok rfl (then_ok rfl rfl), rfl, ?_, run_ok (new_exp _ _ _) (run_ok rfl rfl), ?_⟩
  · simp [Fn.inPlace, Fn.toExpr, Fn.wrap, Fn.clone, Fn.call, Fn.codim, Fn.run, Fn.evs, Fn.evalTy, Fn.evalSum, Fn.evalUnique, Fn.scalarRun, bind, Except.bind, pure, Except.pure,
      one_add_one_eq_two]
  · refine (eval_of_value (f := .expr (0, 1) 1 .sum [.expr (0, 1) 1 .sum [.exp (0, 1)]]) rfl rfl _).trans ?_
    simp [Fn.call, Fn.codim, Fn.run, Fn.evs, Fn.evalTy, Fn.evalSum, Fn.scalarRun, bind, Except.bind, pure, Except.pure]

theorem sub_exp : Fn.sub (Fn.exp (0, 1)).wrap (Fn.exp (0, 1)).wrap = .ok (.expr (0, 1) 1 .sum [.exp (0, 1), .expr (0, 1) 1 .neg [.exp (0, 1)]]) := by
  unfold Fn.sub Fn.add
  rw [if_neg (not_not.2 (same_self_fn _)), if_neg (not_not.2 rfl), if_neg (not_not.2 (same01 _ _ rfl rfl)), if_neg (by simp [Fn.wrap, Fn.neg, Fn.codim])]; rfl

/-- **C78 is false.** `auto z = x - std::move(x)` gives the negative of `x`; the difference of the functions is `0`. -/
theorem C78_sub_move_false : ∃ (bs : List Bool) (E : Env) (h : Fn) (σ : Store),
    Spec.Own.run [.new 0 (.exp (0, 1)), .bin .sub 1 false 0 true 0] noFunctions = some (.ok (bs, E)) ∧ E 1 = some h ∧ h.call [0] = .ok [[0]] ∧
    Own.run [.new 0 (.exp (0, 1)), .bin .sub 1 false 0 true 0] noObjects = (.ok bs, σ) ∧ eval σ 1 [0] = .ok (.ok [[-1]]) := by
  refine ⟨_, _, _, update (update (update noObjects 0 (expObj (0, 1))) 0 { expObj (0, 1) with arr := [] }) 1
      ⟨(0, 1), 1, .sum, [.expr (0, 1) 1 .neg [.leaf (.exp (0, 1))]]⟩, then_ok rfl (then_ok (step_bin rfl rfl sub_exp) rfl), rfl, ?_,
    run_ok (new_exp _ _ _) (run_ok ?_ rfl), ?_⟩
  · simp [Fn.call, Fn.codim, Fn.run, Fn.evs, Fn.evalTy, Fn.evalSum, Fn.evalNeg, Fn.scalarRun, bind, Except.bind, pure, Except.pure]
  · show (Own.sub false true 0 0 >>= fun o => put 1 o) _ = _
    have hx : (update noObjects 0 (expObj (0, 1))) 0 = some (expObj (0, 1)) := rfl
    have hx' : (update (update noObjects 0 (expObj (0, 1))) 0 { expObj (0, 1) with arr := [] }) 0 = some { expObj (0, 1) with arr := [] } := rfl
    have hn : Own.neg true 0 (update noObjects 0 (expObj (0, 1))) =
        (.ok { expObj (0, 1) with ty := .neg }, update (update noObjects 0 (expObj (0, 1))) 0 { expObj (0, 1) with arr := [] }) := rfl
    have hs : Obj.sameDomain { expObj (0, 1) with arr := [] } { expObj (0, 1) with ty := .neg } := same_self (expObj (0, 1))
    rw [bind_app]
    unfold Own.sub
    rw [bind_ok (get_some _ hx), bind_ok (get_some _ hx), bind_ok (sumThrow_ok (same_self _) rfl _), bind_ok hn, bind_ok (get_some _ hx'),
      bind_ok (sumThrow_ok hs rfl _)]
    rfl
  · refine (eval_of_value (f := .expr (0, 1) 1 .sum [.expr (0, 1) 1 .neg [.exp (0, 1)]]) rfl rfl _).trans ?_
    simp [Fn.call, Fn.codim, Fn.run, Fn.evs, Fn.evalTy, Fn.evalSum, Fn.evalNeg, Fn.scalarRun, bind, Except.bind, pure, Except.pure]

/-- The concatenation of `exp` on `[0, 0]` with itself. -/
def twice : Obj := ⟨(0, 0), 1, .concat, [(expObj (0, 0)).ptr, (expObj (0, 0)).ptr]⟩

/-- **C78 is false.** `auto z = std::move(x).concat(x)` with a concatenation `x` on `[0, 0]` does not end (in the code, until there is no memory left): it goes through the list to which it adds. -/
theorem C78_concat_endless_false (ry : Bool) : ∃ (bs : List Bool) (E : Env) (σ : Store),
    Spec.Own.run [.new 0 (.exp (0, 0)), .bin .concat 1 false 0 false 0, .bin .concat 2 true 1 ry 1] noFunctions = some (.ok (bs, E)) ∧
    Own.run [.new 0 (.exp (0, 0)), .bin .concat 1 false 0 false 0, .bin .concat 2 true 1 ry 1] noObjects = (.error .endless, σ) := by
  have h0 : ¬ |(0 : ℝ) - 0| > tol9 := by norm_num [tol9]
  have h1 : Fn.concat ⟨false, false⟩ (Fn.exp (0, 0)).wrap (Fn.exp (0, 0)).wrap = .ok (.expr (0, 0) 1 .concat [(Fn.exp (0, 0)).wrap, (Fn.exp (0, 0)).wrap]) := by
    unfold Fn.concat
    rw [if_neg (not_not.2 rfl), if_neg (by exact h0), if_neg (by simp), if_pos (by exact le_refl (0 : ℝ))]; rfl
  have h2 : ∃ h, Fn.concat ⟨true, ry⟩ (.expr (0, 0) 1 .concat [(Fn.exp (0, 0)).wrap, (Fn.exp (0, 0)).wrap])
      (.expr (0, 0) 1 .concat [(Fn.exp (0, 0)).wrap, (Fn.exp (0, 0)).wrap]) = .ok h := by
    unfold Fn.concat
    rw [if_neg (not_not.2 rfl), if_neg (by exact h0), if_pos (by simp [Fn.parts])]; exact ⟨_, rfl⟩
  obtain ⟨h, h2⟩ := h2
  have hx : (update noObjects 0 (expObj (0, 0))) 0 = some (expObj (0, 0)) := rfl
  set τ := update (update noObjects 0 (expObj (0, 0))) 1 twice with hτ
  have hy : τ 1 = some twice := rfl
  refine ⟨_, _, τ, then_ok rfl (then_ok (step_bin rfl rfl h1) (then_ok (step_bin rfl rfl h2) rfl)),
    run_ok_stop (new_exp _ _ _) (run_ok_stop (σ1 := τ) ?_ (run_stop ?_ (by simp)))⟩
  · show (Own.concat false false 0 0 >>= fun o => put 1 o) _ = _
    have : Own.concat false false 0 0 (update noObjects 0 (expObj (0, 0))) = (.ok twice, update noObjects 0 (expObj (0, 0))) := by
      unfold Own.concat
      rw [bind_ok (get_some _ hx), bind_ok (get_some _ hx), concatThrow, if_neg (not_not.2 rfl), if_neg (by exact h0), if_neg (by simp), if_neg (by simp)]
      have hl : (0 : ℝ) ≤ 0 := le_refl _
      simp only [expObj, hl, if_true]
      rfl
    rw [bind_ok this]; rfl
  · show (Own.concat true ry 1 1 >>= fun o => put 2 o) τ = _
    have ha : appendAll ry 1 1 τ = (.error .endless, τ) := appendAll_self ry hy (by simp [twice]) rfl
    rw [bind_app]
    unfold Own.concat extendBack
    rw [bind_ok (get_some _ hy), bind_ok (get_some _ hy), concatThrow, if_neg (not_not.2 rfl), if_neg (by exact h0), if_pos ⟨rfl, rfl⟩]
    rw [bind_app, pure_app]; dsimp only
    rw [bind_app, bind_ok (get_some _ hy), if_pos (by rfl), ha]

end GSplines.Props
