import Verif.Spec.Failure
import Verif.Proofs.SobolevState
import Verif.Proofs.Functionals

/-! # Calls that throw: the object after the call -/

namespace GSplines.Failure

open GSplines Spec Colloc

/-! ## Loops -/

theorem loop_succ {σ : Type} (n : ℕ) (body : ℕ → σ → σ × Res Unit) (s : σ) :
    loop 0 (n + 1) body s = match (loop 0 n body s).2 with
      | .ok _ => body n (loop 0 n body s).1
      | .error e => ((loop 0 n body s).1, .error e) := by
  unfold loop
  rw [Nat.sub_zero, Nat.sub_zero, List.range'_concat, List.foldl_append]
  simp only [List.foldl_cons, List.foldl_nil, Nat.zero_add, one_mul]
  rfl

theorem loop_zero {σ : Type} (body : ℕ → σ → σ × Res Unit) (s : σ) : loop 0 0 body s = (s, .ok ()) := rfl

/-- Invariant of a loop: it holds at the end if the loop ends, and at the start of the pass that throws. -/
theorem loop_ind {σ : Type} (P : ℕ → σ → Prop) (n : ℕ) (body : ℕ → σ → σ × Res Unit) (s : σ) (h0 : P 0 s)
    (hs : ∀ i < n, ∀ x, P i x → (body i x).2 = .ok () → P (i + 1) (body i x).1) :
    ((loop 0 n body s).2 = .ok () ∧ P n (loop 0 n body s).1) ∨
      ∃ e, (loop 0 n body s).2 = .error e ∧ ∃ i < n, ∃ x, P i x ∧ body i x = loop 0 n body s := by
  induction n with
  | zero => exact .inl ⟨rfl, h0⟩
  | succ n ih =>
    rw [loop_succ]
    rcases ih (fun i hi => hs i (by omega)) with ⟨h1, h2⟩ | ⟨e, h1, i, hi, x, h2, h3⟩
    · rw [h1]
      dsimp only
      cases hb : (body n (loop 0 n body s).1).2 with
      | ok u => exact .inl ⟨rfl, hs n (by omega) _ h2 hb⟩
      | error e => exact .inr ⟨e, rfl, n, by omega, _, h2, rfl⟩
    · rw [h1]
      refine .inr ⟨e, rfl, i, by omega, x, h2, ?_⟩
      rw [h3]
      exact Prod.ext rfl h1

/-- A loop that throws or not exactly as another one. -/
theorem loop_sim {σ ρ : Type} (R : ℕ → σ → ρ → Prop) (n : ℕ) (body : ℕ → σ → σ × Res Unit) (body' : ℕ → ρ → Res ρ) (s : σ) (r : ρ) (h0 : R 0 s r)
    (hs : ∀ i < n, ∀ x y, R i x y → (∃ e, (body i x).2 = .error e ∧ body' i y = .error e) ∨
      ((body i x).2 = .ok () ∧ ∃ y', body' i y = .ok y' ∧ R (i + 1) (body i x).1 y')) :
    (∃ e, (loop 0 n body s).2 = .error e ∧ forLoopM 0 n body' r = .error e) ∨
      ((loop 0 n body s).2 = .ok () ∧ ∃ r', forLoopM 0 n body' r = .ok r' ∧ R n (loop 0 n body s).1 r') := by
  induction n with
  | zero => exact .inr ⟨rfl, r, rfl, h0⟩
  | succ n ih =>
    rw [loop_succ, Colloc.forLoopM_succ]
    rcases ih (fun i hi => hs i (by omega)) with ⟨e, h1, h2⟩ | ⟨h1, r', h2, h3⟩
    · rw [h1, h2]; exact .inl ⟨e, rfl, rfl⟩
    · rw [h1, h2]
      rcases hs n (by omega) _ _ h3 with ⟨e, h4, h5⟩ | ⟨h4, y', h5, h6⟩
      · exact .inl ⟨e, h4, h5⟩
      · exact .inr ⟨h4, y', h5, h6⟩

/-- Two loops that throw or not at the same pass. -/
theorem loop_rel {σ ρ : Type} (R : ℕ → σ → ρ → Prop) (n : ℕ) (body : ℕ → σ → σ × Res Unit) (body' : ℕ → ρ → ρ × Res Unit) (s : σ) (r : ρ) (h0 : R 0 s r)
    (hs : ∀ i < n, ∀ x y, R i x y → (body i x).2 = (body' i y).2 ∧ ((body i x).2 = .ok () → R (i + 1) (body i x).1 (body' i y).1)) :
    (loop 0 n body s).2 = (loop 0 n body' r).2 ∧ ((loop 0 n body s).2 = .ok () → R n (loop 0 n body s).1 (loop 0 n body' r).1) := by
  induction n with
  | zero => exact ⟨rfl, fun _ => h0⟩
  | succ n ih =>
    rw [loop_succ, loop_succ]
    obtain ⟨h1, h2⟩ := ih (fun i hi => hs i (by omega))
    cases h3 : (loop 0 n body s).2 with
    | ok u =>
      rw [h3] at h1
      rw [← h1]
      exact hs n (by omega) _ _ (h2 h3)
    | error e =>
      rw [h3] at h1
      rw [← h1]
      exact ⟨rfl, fun h => by cases h⟩

/-! ## What does not throw -/

/-- The only failure is undefined behaviour. -/
def OnlyUb {α : Type} (r : Res α) : Prop := ∀ e, r = .error e → e = .ub

theorem OnlyUb.ok {α : Type} (x : α) : OnlyUb (.ok x : Res α) := fun _ h => by cases h

theorem OnlyUb.pure {α : Type} (x : α) : OnlyUb (pure x : Res α) := fun _ h => by cases h

theorem OnlyUb.ub {α : Type} : OnlyUb (.error .ub : Res α) := fun _ h => by cases h; rfl

theorem OnlyUb.bind {α β : Type} {r : Res α} {f : α → Res β} (h1 : OnlyUb r) (h2 : ∀ x, OnlyUb (f x)) : OnlyUb (r >>= f) := by
  intro e h
  cases hr : r with
  | error e' => rw [hr] at h; cases h; exact h1 _ hr
  | ok x => rw [hr] at h; exact h2 x e h

theorem OnlyUb.ite {α : Type} {c : Prop} [Decidable c] {r q : Res α} (h1 : OnlyUb r) (h2 : OnlyUb q) : OnlyUb (if c then r else q) := by
  split_ifs
  · exact h1
  · exact h2

theorem OnlyUb.foldlM {σ ι : Type} (l : List ι) {body : σ → ι → Res σ} (h : ∀ x i, OnlyUb (body x i)) (s : σ) : OnlyUb (l.foldlM body s) := by
  induction l generalizing s with
  | nil => exact .pure s
  | cons i l ih => rw [List.foldlM_cons]; exact .bind (h s i) fun x => ih x

theorem OnlyUb.loop {σ : Type} (a b : ℕ) {body : ℕ → σ → Res σ} (h : ∀ i x, OnlyUb (body i x)) (s : σ) : OnlyUb (forLoopM a b body s) :=
  .foldlM _ (fun x i => h i x) s

theorem OnlyUb.not_thrown {α : Type} {r : Res α} (h : OnlyUb r) : ¬ Throws r := by
  rintro ⟨e, h1, h2⟩
  rw [h e h1] at h2
  exact h2

theorem onlyUb_rd (l : List ℝ) (i : ℕ) : OnlyUb (rd l i) := by
  unfold rd
  split
  · exact .ok _
  · exact .ub

theorem onlyUb_segment (l : List ℝ) (i n : ℕ) : OnlyUb (segment l i n) := .ite (.ok _) .ub

theorem onlyUb_eval (b : Basis) (s tau : ℝ) (deg : ℕ) : OnlyUb (b.evalDerivOnWindow s tau deg) := by
  cases b with
  | legendre d => unfold Basis.evalDerivOnWindow Legendre.evalDerivOnWindow; exact .ite .ub (.ok _)
  | lagrange x => exact .ok _
  | b0101 a => exact .ok _

theorem onlyUb_evalTau (b : Basis) (s tau : ℝ) (deg : ℕ) : OnlyUb (b.evalDerivWrtTauOnWindow s tau deg) := by
  cases b with
  | legendre d =>
    unfold Basis.evalDerivWrtTauOnWindow Legendre.evalDerivWrtTauOnWindow
    exact .bind (onlyUb_eval (.legendre d) s tau deg) fun _ => .pure _
  | lagrange x => exact .ok _
  | b0101 a => exact .ok _

theorem onlyUb_buffers {ev : ℕ → Res Vec} (h : ∀ k, OnlyUb (ev k)) (dim : ℕ) : OnlyUb (Interp.buffers ev dim) :=
  .bind (h 0) fun _ => .bind (.loop _ _ (fun _ _ => .bind (h _) fun _ => .pure _) _) fun _ => .pure _

theorem onlyUb_fillBuffers (b : Basis) (s tau : ℝ) : OnlyUb (Interp.fillBuffers b s tau) := onlyUb_buffers (onlyUb_eval b s tau) _

theorem onlyUb_fillBuffersTau (b : Basis) (s tau : ℝ) : OnlyUb (Interp.fillBuffersTau b s tau) := onlyUb_buffers (onlyUb_evalTau b s tau) _

/-- `fill_interpolating_matrix` throws if and only if the number of lengths is wrong, before it writes. -/
theorem fillMatrix_error (b : Basis) (codim n : ℕ) (tau : List ℝ) (m : Mat) :
    (tau.length ≠ n ∧ Interp.fillMatrix b codim n tau m = .error .logicError) ∨ (tau.length = n ∧ OnlyUb (Interp.fillMatrix b codim n tau m)) := by
  by_cases h : tau.length ≠ n
  · exact .inl ⟨h, if_pos h⟩
  · refine .inr ⟨not_not.mp h, ?_⟩
    unfold Interp.fillMatrix
    rw [if_neg h]
    refine .bind (onlyUb_rd _ _) fun t => .bind (onlyUb_fillBuffers _ _ _) fun l => .bind (onlyUb_fillBuffers _ _ _) fun r => .ite (.pure _) ?_
    refine .bind (.loop _ _ (fun iv st => ?_) _) fun st => ?_
    · exact .bind (onlyUb_rd _ _) fun t => .bind (onlyUb_fillBuffers _ _ _) fun l => .bind (onlyUb_fillBuffers _ _ _) fun r => .pure _
    · exact .bind (onlyUb_rd _ _) fun t => .bind (onlyUb_fillBuffers _ _ _) fun l => .bind (onlyUb_fillBuffers _ _ _) fun r => .pure _

theorem onlyUb_fillVector (D c n : ℕ) (w : Pts) (v : Vec) : OnlyUb (Interp.fillVector D c n w v) := by
  unfold Interp.fillVector
  refine .ite .ub ?_
  dsimp only
  exact .ite (.ok _) (.ok _)

theorem onlyUb_fillDer (b : Basis) (codim n : ℕ) (tau : List ℝ) (idx : ℕ) (m : Mat) : OnlyUb (Interp.fillDer b codim n tau idx m) := by
  unfold Interp.fillDer
  refine .bind (onlyUb_rd _ _) fun t => .bind (onlyUb_fillBuffersTau _ _ _) fun l => .bind (onlyUb_fillBuffersTau _ _ _) fun r => ?_
  exact .ite (.ite (.pure _) (.pure _)) (.ite (.pure _) (.ite (.pure _) (.pure _)))

/-! ## Interpolator -/

theorem solve_drop (lu : LU) (tau : List ℝ) (w : Pts) (s : Interp) : dropState' (solve lu tau w s) = s.solveInterpolation lu tau w := by
  unfold solve Interp.solveInterpolation
  by_cases h1 : ∃ x ∈ tau, x < 1 / 10 ^ 6
  · rw [if_pos h1, if_pos h1]; rfl
  rw [if_neg h1, if_neg h1]
  cases hm : Interp.fillMatrix s.basis s.codim s.n tau s.mat with
  | error e => rfl
  | ok m =>
    rw [Interp.ok_bind]
    cases hv : Interp.fillVector s.basis.dim s.codim s.n w s.vec with
    | error e => rfl
    | ok v =>
      rw [Interp.ok_bind]
      dsimp only
      by_cases hl : lu.succeeds (Interp.size { s with mat := m, vec := v }) m = true
      · rw [if_pos hl, if_pos hl]; rfl
      · rw [if_neg hl, if_neg hl]; rfl

/-- `solve_interpolation` returns, or it throws and leaves the object as it was, or its behaviour is undefined. -/
theorem solve_cases (lu : LU) (tau : List ℝ) (w : Pts) (s : Interp) :
    (∃ x, (solve lu tau w s).2 = .ok x ∧ s.solveInterpolation lu tau w = .ok ((solve lu tau w s).1, x)) ∨
    (Throws (solve lu tau w s).2 ∧ (solve lu tau w s).1 = s) ∨ (solve lu tau w s).2 = .error .ub := by
  have hd := solve_drop lu tau w s
  cases h : (solve lu tau w s).2 with
  | ok x =>
    refine .inl ⟨x, rfl, ?_⟩
    rw [← hd]
    unfold dropState'
    rw [show solve lu tau w s = ((solve lu tau w s).1, (solve lu tau w s).2) from rfl, h]
  | error e =>
    right
    unfold solve at h ⊢
    by_cases h1 : ∃ x ∈ tau, x < 1 / 10 ^ 6
    · rw [if_pos h1] at h ⊢; cases h; exact .inl ⟨⟨_, rfl, trivial⟩, rfl⟩
    rw [if_neg h1] at h ⊢
    rcases fillMatrix_error s.basis s.codim s.n tau s.mat with ⟨h2, h3⟩ | ⟨h2, h3⟩
    · rw [h3] at h ⊢; cases h; exact .inl ⟨⟨_, rfl, trivial⟩, rfl⟩
    · cases hm : Interp.fillMatrix s.basis s.codim s.n tau s.mat with
      | error e' => rw [hm] at h; cases h; rw [h3 e hm]; exact .inr rfl
      | ok m =>
        rw [hm] at h
        dsimp only at h
        cases hv : Interp.fillVector s.basis.dim s.codim s.n w s.vec with
        | error e' => rw [hv] at h; cases h; rw [onlyUb_fillVector _ _ _ _ _ e hv]; exact .inr rfl
        | ok v =>
          rw [hv] at h
          dsimp only at h
          split_ifs at h <;> cases h

theorem coeff_drop (lu : LU) (y tau : List ℝ) (idx : ℕ) (s : Interp) : dropState' (coeff lu y tau idx s) = s.coeffDerivative lu y tau idx := by
  unfold coeff Interp.coeffDerivative
  by_cases h1 : ∃ x ∈ tau, x < 1 / 10 ^ 6
  · rw [if_pos h1, if_pos h1]; rfl
  rw [if_neg h1, if_neg h1]
  by_cases h2 : tau.length ≠ s.n ∨ s.n ≤ idx
  · rw [if_pos h2, if_pos h2]; rfl
  rw [if_neg h2, if_neg h2]
  cases hd : Interp.fillDer s.basis s.codim s.n tau idx (s.ders idx) with
  | error e => rfl
  | ok d =>
    rw [Interp.ok_bind]
    dsimp only
    by_cases h3 : y.length ≠ s.size
    · rw [if_pos h3, if_pos (show y.length ≠ Interp.size { s with ders := setAt s.ders idx d } from h3)]; rfl
    rw [if_neg h3, if_neg (show ¬ y.length ≠ Interp.size { s with ders := setAt s.ders idx d } from h3)]
    cases hm : Interp.fillMatrix s.basis s.codim s.n tau s.mat with
    | error e => rfl
    | ok m =>
      rw [Interp.ok_bind]
      dsimp only
      by_cases hl : lu.succeeds s.size m = true
      · rw [if_pos hl, if_pos (show lu.succeeds (Interp.size { s with ders := setAt s.ders idx d }) m = true from hl)]; rfl
      · rw [if_neg hl, if_neg (show ¬ lu.succeeds (Interp.size { s with ders := setAt s.ders idx d }) m = true from hl)]; rfl

/-- `get_coeff_derivative_wrt_tau` returns, or it throws and leaves the object as it was, or it does neither. -/
theorem coeff_cases (lu : LU) (y tau : List ℝ) (idx : ℕ) (s : Interp) :
    (∃ x, (coeff lu y tau idx s).2 = .ok x ∧ s.coeffDerivative lu y tau idx = .ok ((coeff lu y tau idx s).1, x)) ∨
    (Throws (coeff lu y tau idx s).2 ∧ (coeff lu y tau idx s).1 = s ∧ ∃ x ∈ tau, x < 1 / 10 ^ 6) ∨ ∃ e, (coeff lu y tau idx s).2 = .error e ∧ ¬ Thrown e := by
  have hd := coeff_drop lu y tau idx s
  cases h : (coeff lu y tau idx s).2 with
  | ok x =>
    refine .inl ⟨x, rfl, ?_⟩
    rw [← hd]
    unfold dropState'
    rw [show coeff lu y tau idx s = ((coeff lu y tau idx s).1, (coeff lu y tau idx s).2) from rfl, h]
  | error e =>
    right
    unfold coeff at h ⊢
    by_cases h1 : ∃ x ∈ tau, x < 1 / 10 ^ 6
    · rw [if_pos h1] at h ⊢; cases h; exact .inl ⟨⟨_, rfl, trivial⟩, rfl, h1⟩
    rw [if_neg h1] at h
    by_cases h2 : tau.length ≠ s.n ∨ s.n ≤ idx
    · rw [if_pos h2] at h; cases h
    rw [if_neg h2] at h
    right
    refine ⟨e, rfl, ?_⟩
    push Not at h2
    cases hd : Interp.fillDer s.basis s.codim s.n tau idx (s.ders idx) with
    | error e' => rw [hd] at h; cases h; rw [onlyUb_fillDer _ _ _ _ _ _ e hd]; exact id
    | ok d =>
      rw [hd] at h
      dsimp only at h
      split_ifs at h with h3
      · cases h; exact id
      · rcases fillMatrix_error s.basis s.codim s.n tau s.mat with ⟨h4, -⟩ | ⟨-, h5⟩
        · exact absurd h2.1 h4
        · cases hm : Interp.fillMatrix s.basis s.codim s.n tau s.mat with
          | error e' => rw [hm] at h; cases h; rw [h5 e hm]; exact id
          | ok m =>
            rw [hm] at h
            dsimp only at h
            split_ifs at h
            cases h; exact id

theorem interpolate_drop (lu : LU) (tau : List ℝ) (w : Pts) (s : Interp) : dropState' (interpolate lu tau w s) = s.interpolate lu tau w := by
  unfold interpolate Interp.interpolate
  rw [← solve_drop]
  rcases h : solve lu tau w s with ⟨s', r⟩
  cases r with
  | error e => rfl
  | ok x =>
    change dropState' (s', GSpline.make (0, tau.sum) s'.codim s'.n s'.basis x tau) = (do
      let g ← GSpline.make (0, tau.sum) s'.codim s'.n s'.basis x tau
      return (s', g))
    cases GSpline.make (0, tau.sum) s'.codim s'.n s'.basis x tau with
    | error e => rfl
    | ok g => rfl

/-- Calls that throw lead to no new states of an interpolator. -/
theorem history_reach {lu : LU} {codim n : ℕ} {b : Basis} {s : Interp} (h : IHistory lu codim n b s) : Reach lu codim n b s := by
  have key : ∀ {s : Interp} {tau : List ℝ} {w : Pts}, Reach lu codim n b s → (solve lu tau w s).2 ≠ .error .ub → Reach lu codim n b (solve lu tau w s).1 := by
    intro s tau w hs hu
    rcases solve_cases lu tau w s with ⟨x, -, h2⟩ | ⟨-, h2⟩ | h2
    · exact .solve hs h2
    · rw [h2]; exact hs
    · exact absurd h2 hu
  induction h with
  | make h => exact .make h
  | @solve s tau w _ hg ih =>
    refine key ih fun hu => ?_
    rcases hg with ⟨x, hx⟩ | ⟨e, he, ht⟩
    · rw [hu] at hx; cases hx
    · rw [hu] at he; cases he; exact ht
  | @interpolate s tau w _ hg ih =>
    have e1 : (Failure.interpolate lu tau w s).1 = (Failure.solve lu tau w s).1 := by
      unfold Failure.interpolate
      rcases Failure.solve lu tau w s with ⟨s', r⟩
      cases r <;> rfl
    rw [e1]
    refine key ih fun hu => ?_
    have e2 : (Failure.interpolate lu tau w s).2 = .error .ub := by
      unfold Failure.interpolate
      rcases h : Failure.solve lu tau w s with ⟨s', r⟩
      rw [h] at hu
      dsimp only at hu
      rw [hu]
    rcases hg with ⟨x, hx⟩ | ⟨e, he, ht⟩
    · rw [e2] at hx; cases hx
    · rw [e2] at he; cases he; exact ht
  | @coeff s y tau idx _ hg ih =>
    rcases coeff_cases lu y tau idx s with ⟨x, -, h2⟩ | ⟨-, h2, -⟩ | ⟨e, h2, h3⟩
    · exact .coeff ih h2
    · rw [h2]; exact ih
    · rcases hg with ⟨x, hx⟩ | ⟨e', he, ht⟩
      · rw [h2] at hx; cases hx
      · rw [h2] at he; cases he; exact absurd ht h3

end GSplines.Failure
