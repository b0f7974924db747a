import Verif.Spec.ThreadsCache
import Verif.Proofs.ThreadsCache
import Verif.Props.GSpline

/-!
# Concurrent derivation (C71)

`GSpline::deriv` and `Basis::get_derivative_matrix_block` are `const` functions, but the basis keeps the matrices of the orders asked for so far in a vector. Threads may use
different objects in any interleaving, threads that use one object may take turns; without turns an object that holds the matrices of the orders below `n` answers requests of
the orders up to `n` rightly in every interleaving, and this is the limit: two requests of order `n + 1` can leave the object with a wrong matrix for good.
-/

namespace GSplines.Props

open GSplines Spec.Derivers Derivers

/-- **C71**, the part that is true: any number of threads, any distribution over objects, any requests, any schedule in which threads that use the same object take turns
call by call. A thread that has finished has got the matrices it asked for. -/
theorem C71_turns_partial (b : ℕ → Basis) (obj n : ℕ → ℕ) (reqs : ℕ → List ℕ) (s : Sys) (hm : ∀ o, Holds (b o) (s.mem o) (n o)) (hs : ∀ j, Starts (s.thread j) (reqs j))
    (sched : List ℕ) (hx : Exclusive b obj s sched) (j : ℕ) (hj : Finished ((s.run b obj sched).thread j)) :
    ((s.run b obj sched).thread j).out = (reqs j).map fun d => .ok ((b (obj j)).derivMatrixImpl d) := by
  have h := answers_finished (run_turns sched hx (fun i => by rw [(hs i).2.1]; exact ⟨_, hm _⟩) (fun i => answers_start _ (hs i)) j) hj
  generalize ((s.run b obj sched).thread j).out = out at h
  generalize reqs j = r at h
  clear hs hm
  induction h with
  | nil => rfl
  | cons h _ ih => rw [List.map_cons, ← ih, h]

/-- **C71**, threads with objects of their own (a copy of a spline has a basis of its own): every interleaving. -/
theorem C71_private (b : ℕ → Basis) (obj n : ℕ → ℕ) (hobj : Function.Injective obj) (reqs : ℕ → List ℕ) (s : Sys) (hm : ∀ o, Holds (b o) (s.mem o) (n o))
    (hs : ∀ j, Starts (s.thread j) (reqs j)) (sched : List ℕ) (j : ℕ) (hj : Finished ((s.run b obj sched).thread j)) :
    ((s.run b obj sched).thread j).out = (reqs j).map fun d => .ok ((b (obj j)).derivMatrixImpl d) := by
  refine C71_turns_partial b obj n reqs s hm hs sched ?_ j hj
  clear hm hs hj
  induction sched generalizing s with
  | nil => trivial
  | cons j sched ih => exact ⟨fun i hij h => absurd (hobj h) hij, ih _⟩

/-- **C71**, shared objects, every interleaving of every number of threads: no call reads outside the vector, and the matrix that a call of order `d` returns is one of
an order `k ≤ d`, and `k ≥ n` if the object held the orders below `n ≤ d`. -/
theorem C71_shared (b : ℕ → Basis) (obj n : ℕ → ℕ) (reqs : ℕ → List ℕ) (s : Sys) (hm : ∀ o, Holds (b o) (s.mem o) (n o)) (hs : ∀ j, Starts (s.thread j) (reqs j))
    (sched : List ℕ) (j : ℕ) (hj : Finished ((s.run b obj sched).thread j)) :
    List.Forall₂ (fun d r => ∃ k, r = .ok ((b (obj j)).derivMatrixImpl k) ∧ min d (n (obj j)) ≤ k ∧ k ≤ d) (reqs j) ((s.run b obj sched).thread j).out :=
  answers_finished ((sysInv_run sched (sysInv_start hm hs)).ans j) hj

/-- **C71**, shared objects, every interleaving: the orders up to the first one that the object does not hold are answered rightly; so are first derivatives of
a new object, and all derivatives once a higher one has been taken. -/
theorem C71_shared_held (b : ℕ → Basis) (obj n : ℕ → ℕ) (reqs : ℕ → List ℕ) (s : Sys) (hm : ∀ o, Holds (b o) (s.mem o) (n o)) (hs : ∀ j, Starts (s.thread j) (reqs j))
    (sched : List ℕ) (j : ℕ) (hle : ∀ d ∈ reqs j, d ≤ n (obj j)) (hj : Finished ((s.run b obj sched).thread j)) :
    ((s.run b obj sched).thread j).out = (reqs j).map fun d => .ok ((b (obj j)).derivMatrixImpl d) := by
  have h := C71_shared b obj n reqs s hm hs sched j hj
  generalize ((s.run b obj sched).thread j).out = out at h
  generalize reqs j = r at h hle
  induction h with
  | nil => rfl
  | cons h _ ih =>
    obtain ⟨k, e, h1, h2⟩ := h
    have hd := hle _ List.mem_cons_self
    rw [List.map_cons, ← ih fun d hd => hle d (by simp [hd]), e, show k = _ from le_antisymm h2 (by omega)]

/-- **C71**, no thread waits for another: there is a number of steps after which a thread has finished, in every schedule that lets it make them. -/
theorem C71_finishes (b : ℕ → Basis) (obj n : ℕ → ℕ) (reqs : ℕ → List ℕ) (s : Sys) (hm : ∀ o, Holds (b o) (s.mem o) (n o)) (hs : ∀ j, Starts (s.thread j) (reqs j)) (j : ℕ) :
    ∃ N, ∀ sched : List ℕ, N ≤ sched.count j → Finished ((s.run b obj sched).thread j) :=
  ⟨(s.thread j).work, fun sched h => by
    rw [Derivers.finished_iff]
    have := Derivers.work_run sched (sysInv_start (obj := obj) hm hs) j
    omega⟩

/-- **C71**, the derivatives of a shared spline that is not changed: in every interleaving a thread that calls `deriv(deg)`, with `deg` at most the number of orders its basis held at
the start, computes the spline that a call without other threads returns. -/
theorem C71_deriv (g : GSpline) (b : ℕ → Basis) (obj n : ℕ → ℕ) (reqs : ℕ → List ℕ) (s : Sys) (hm : ∀ o, Holds (b o) (s.mem o) (n o)) (hs : ∀ j, Starts (s.thread j) (reqs j))
    (sched : List ℕ) (j deg : ℕ) (hb : b (obj j) = g.basis) (hr : reqs j = derivRequests g deg) (hdeg : deg ≤ n (obj j)) (hj : Finished ((s.run b obj sched).thread j))
    (ms : ℕ → Mat) (hms : ∀ k < (derivRequests g deg).length, ((s.run b obj sched).thread j).out[k]? = some (.ok (ms k))) :
    derivWith g deg ms = g.deriv deg := by
  have hall : ∀ d ∈ derivRequests g deg, d = deg := fun d hd => by
    unfold derivRequests at hd
    split at hd
    · simp at hd
    · exact List.eq_of_mem_replicate hd
  have hout := C71_shared_held b obj n reqs s hm hs sched j (fun d hd => by rw [hr] at hd; rw [hall d hd]; exact hdeg) hj
  refine derivWith_eq g deg ms fun k hk => ?_
  have h := hms k hk
  rw [hout, hr, List.getElem?_map, List.getElem?_eq_getElem hk] at h
  have hd : (derivRequests g deg)[k] = deg := hall _ (List.getElem_mem hk)
  simp only [Option.map_some, Option.some.injEq, Except.ok.injEq] at h
  rw [← h, hb, hd]

/-- **C71 is false for a shared object**, at the first order that is not covered by `C71_shared_held`: for every basis and every `n`, two threads that ask an object holding the orders
below `n` for order `n + 1`, any positive number of times, can be scheduled such that both get the matrix of order `n` each time, and from then on, whatever is asked of the object, order
`n + 1` is answered with the matrix of order `n`. -/
theorem C71_shared_false (b : ℕ → Basis) (obj : ℕ → ℕ) (i j : ℕ) (hij : i ≠ j) (hobj : obj i = obj j) (n N N' : ℕ) (s : Sys) (hm : Holds (b (obj i)) (s.mem (obj i)) n)
    (hi : Starts (s.thread i) (List.replicate (N + 1) (n + 1))) (hj : Starts (s.thread j) (List.replicate (N' + 1) (n + 1))) :
    ∃ sched : List ℕ, Finished ((s.run b obj sched).thread i) ∧ Finished ((s.run b obj sched).thread j) ∧
      ((s.run b obj sched).thread i).out = List.replicate (N + 1) (.ok ((b (obj i)).derivMatrixImpl n)) ∧
      ((s.run b obj sched).thread j).out = List.replicate (N' + 1) (.ok ((b (obj i)).derivMatrixImpl n)) ∧
      ∀ orders : List ℕ, ((b (obj i)).getBlock (n + 1) (orders.foldl (fun c d => ((b (obj i)).getBlock d c).1) ((s.run b obj sched).mem (obj i)))).2
        = .ok ((b (obj i)).derivMatrixImpl n) := by
  obtain ⟨ti, ai, oi⟩ := hi
  obtain ⟨tj, aj, oj⟩ := hj
  set D := (b (obj i)).derivMatrixImpl with hD
  have hl := Holds.length hm
  have hbj : b (obj j) = b (obj i) := by rw [hobj]
  have ei : s.thread i = ⟨List.replicate (N + 1) (n + 1), .idle, []⟩ := by
    rcases h : s.thread i with ⟨_, _, _⟩; rw [h] at ti ai oi; simp only at ti ai oi; rw [ti, ai, oi]
  have ej : s.thread j = ⟨List.replicate (N' + 1) (n + 1), .idle, []⟩ := by
    rcases h : s.thread j with ⟨_, _, _⟩; rw [h] at tj aj oj; simp only at tj aj oj; rw [tj, aj, oj]
  -- both see that `n` orders are held
  obtain ⟨i1, m1⟩ := step_self b obj s i ei rfl
  have j1 := (step_other b obj s (Ne.symm hij)).trans ej
  set s1 := s.step b obj i
  simp only [Thread.step, List.replicate_succ, hl, Nat.le_succ, if_true, enter, show n ≠ n + 1 + 1 by omega, ne_eq, not_false_eq_true] at i1 m1
  obtain ⟨j2, m2⟩ := step_self b obj s1 j j1 ((congrArg s1.mem hobj.symm).trans m1)
  have i2 := (step_other b obj s1 hij).trans i1
  set s2 := s1.step b obj j
  simp only [Thread.step, List.replicate_succ, hl, Nat.le_succ, if_true, enter, show n ≠ n + 1 + 1 by omega, ne_eq, not_false_eq_true] at j2 m2
  -- both add the matrix of order `n`
  obtain ⟨i3, m3⟩ := step_self b obj s2 i i2 ((congrArg s2.mem hobj).trans m2)
  have j3 := (step_other b obj s2 (Ne.symm hij)).trans j2
  set s3 := s2.step b obj i
  simp only [Thread.step, enter, show n + 1 ≠ n + 1 + 1 by omega, ne_eq, not_false_eq_true, if_true] at i3 m3
  obtain ⟨j4, m4⟩ := step_self b obj s3 j j3 ((congrArg s3.mem hobj.symm).trans m3)
  have i4 := (step_other b obj s3 hij).trans i3
  set s4 := s3.step b obj j
  simp only [Thread.step, enter, show n + 1 ≠ n + 1 + 1 by omega, ne_eq, not_false_eq_true, if_true] at j4 m4
  -- and then the one of order `n + 1`
  obtain ⟨i5, m5⟩ := step_self b obj s4 i i4 ((congrArg s4.mem hobj).trans m4)
  have j5 := (step_other b obj s4 (Ne.symm hij)).trans j4
  set s5 := s4.step b obj i
  simp only [Thread.step, enter, ne_eq, not_true_eq_false, if_false] at i5 m5
  obtain ⟨j6, m6⟩ := step_self b obj s5 j j5 ((congrArg s5.mem hobj.symm).trans m5)
  have i6 := (step_other b obj s5 hij).trans i5
  set s6 := s5.step b obj j
  simp only [Thread.step, enter, ne_eq, not_true_eq_false, if_false] at j6 m6
  have hbad : ∀ w, (s.mem (obj i) ++ [D n] ++ [(b (obj j)).derivMatrixImpl n] ++ w)[n + 1]? = some (D n) := fun w => by
    rw [hbj, List.append_assoc, List.append_assoc, List.getElem?_append_right (by omega), hl, show n + 1 - n = 1 by omega]; rfl
  -- both read
  have hbad6 : (s.mem (obj i) ++ [D n] ++ [(b (obj j)).derivMatrixImpl n] ++ [D (n + 1)] ++ [(b (obj j)).derivMatrixImpl (n + 1)])[n + 1]? = some (D n) := by
    rw [List.append_assoc]; exact hbad _
  obtain ⟨i7, m7⟩ := step_self b obj s6 i i6 ((congrArg s6.mem hobj).trans m6)
  have j7 := (step_other b obj s6 (Ne.symm hij)).trans j6
  set s7 := s6.step b obj i
  simp only [Thread.step] at i7 m7
  rw [hbad6] at i7
  obtain ⟨j8, m8⟩ := step_self b obj s7 j j7 ((congrArg s7.mem hobj.symm).trans m7)
  have i8 := (step_other b obj s7 hij).trans i7
  set s8 := s7.step b obj j
  simp only [Thread.step] at j8 m8
  rw [hbad6] at j8
  -- the remaining calls read the same entry
  obtain ⟨i9, m9, o9⟩ := run_reads b obj i (n + 1) (D n) N s8 _ i8 (by rw [hobj, m8]; exact hbad6)
  set s9 := s8.run b obj (List.replicate (2 * N) i)
  obtain ⟨j10, m10, o10⟩ := run_reads b obj j (n + 1) (D n) N' s9 _ ((o9 j (Ne.symm hij)).trans j8) (by rw [← hobj, m9, hobj, m8]; exact hbad6)
  have i10 := (o10 i hij).trans i9
  refine ⟨[i, j, i, j, i, j, i, j] ++ (List.replicate (2 * N) i ++ List.replicate (2 * N') j), ?_⟩
  rw [Derivers.run_append, show s.run b obj [i, j, i, j, i, j, i, j] = s8 from rfl, Derivers.run_append]
  change Finished ((s9.run b obj _).thread i) ∧ Finished ((s9.run b obj _).thread j) ∧ ((s9.run b obj _).thread i).out = _ ∧ ((s9.run b obj _).thread j).out = _ ∧
    ∀ orders : List ℕ, (_ : List Mat × Res Mat).2 = _
  rw [i10, j10]
  refine ⟨⟨rfl, rfl⟩, ⟨rfl, rfl⟩, by simp [List.replicate_succ], by simp [List.replicate_succ], fun orders => ?_⟩
  have hmem : (s9.run b obj (List.replicate (2 * N') j)).mem (obj i) = s.mem (obj i) ++ [D n] ++ [(b (obj j)).derivMatrixImpl n] ++ [D (n + 1)] ++ [(b (obj j)).derivMatrixImpl (n + 1)] :=
    (congrArg _ hobj).trans (m10.trans ((congrArg s9.mem hobj.symm).trans (m9.trans ((congrArg s8.mem hobj).trans m8))))
  have hfill : ∀ (c : List Mat) (d : ℕ), c[n + 1]? = some (D n) → ((b (obj i)).fillCache d c)[n + 1]? = some (D n) := fun c d hc => by
    unfold Basis.fillCache
    refine forLoop_inv (fun c : List Mat => c[n + 1]? = some (D n)) _ _ _ _ hc fun k st _ _ h => ?_
    rw [List.getElem?_append_left (List.getElem?_eq_some_iff.1 h).1]; exact h
  have hall : ∀ (os : List ℕ) (c : List Mat), c[n + 1]? = some (D n) → (os.foldl (fun c d => ((b (obj i)).getBlock d c).1) c)[n + 1]? = some (D n) := by
    intro os
    induction os with
    | nil => exact fun c hc => hc
    | cons d os ih => exact fun c hc => ih _ (hfill c d hc)
  have hbad10 : ((s9.run b obj (List.replicate (2 * N') j)).mem (obj i))[n + 1]? = some (D n) := by rw [hmem]; exact hbad6
  have hget : ∀ c : List Mat, ((b (obj i)).fillCache (n + 1) c)[n + 1]? = some (D n) → ((b (obj i)).getBlock (n + 1) c).2 = .ok (D n) := fun c h => by
    simp only [Basis.getBlock, h]
  exact hget _ (hfill _ (n + 1) (hall orders _ hbad10))

/-- A new basis object holds the matrix of order 0 (Basis.hpp:74-76). -/
theorem holds_new (b : Basis) : Holds b Basis.cache0 1 := by
  simp [Holds, Basis.cache0, Basis.derivMatrixImpl_zero]

/-- The parabola `(t - 1)^2` over the interval from `0` to `2`. -/
noncomputable def parabola : GSpline := ⟨(0, 2), 1, .legendre 3, [1 / 3, 0, 2 / 3], [2]⟩

theorem parabola_dmat : ((Legendre.dmat 3) = fun i j => if i = 1 ∧ j = 0 then 1 else if i = 2 ∧ j = 1 then 3 else 0) := by
  funext i j
  simp only [Legendre.dmat, forLoop, List.range', List.foldl, Nat.reduceSub, setAt2_apply, Mat.zero]
  simp [Legendre.dmatEntry, Legendre.alpha, Legendre.gamma, setAt2_apply, Mat.zero]
  split_ifs <;> first | rfl | omega | (norm_num)

/-- What a thread that has read the matrix of order 1 returns as second derivative of the parabola, and what the second derivative is. -/
theorem parabola_deriv : derivWith parabola 2 (fun _ => parabola.basis.derivMatrixImpl 1) = .ok ⟨(0, 2), 1, .legendre 3, [0, 2, 0], [2]⟩ ∧
    parabola.deriv 2 = .ok ⟨(0, 2), 1, .legendre 3, [2, 0, 0], [2]⟩ := by
  have h0 : ¬ parabola.derivDividesByZero := by simp [GSpline.derivDividesByZero, parabola]
  constructor
  · unfold derivWith
    rw [if_pos (by norm_num), if_neg (by simp [parabola, GSpline.nIntervals, Basis.dim]), if_neg h0]
    simp [parabola, GSpline.make, GSpline.nIntervals, Basis.dim, coeffsWith, forLoop, List.range', segmentWith, GSpline.derivScale, vecOf, Basis.derivMatrixImpl, Legendre.derivMatrixImpl,
      parabola_dmat, Mat.tr, Mat.mulVec, Finset.sum_range_succ, List.range_succ]
    norm_num
  · unfold GSpline.deriv
    rw [if_pos (by norm_num), if_neg (by simp [parabola, GSpline.nIntervals, Basis.dim]), if_neg h0]
    simp [parabola, GSpline.make, GSpline.nIntervals, Basis.dim, GSpline.derivCoeffs, forLoop, List.range', GSpline.derivSegment, Basis.derivBlock, GSpline.derivScale, vecOf,
      Basis.derivMatrixImpl, Legendre.derivMatrixImpl, parabola_dmat, Mat.tr, Mat.mul, Mat.mulVec, Finset.sum_range_succ, List.range_succ]
    norm_num

/-- Threads 0 and 1 take the derivative of order `deg` of the same new parabola; the other threads do nothing. -/
noncomputable def parabolaProgram (deg : ℕ) : Sys := ⟨fun _ => Basis.cache0, fun j => ⟨if j < 2 then derivRequests parabola deg else [], .idle, []⟩⟩

/-- The hypotheses of `C71_shared_false` are met: two threads take the second derivative of a new parabola and get `2 (t - 1)`, while it is `2`. -/
example : ∃ sched : List ℕ, ∀ j < 2, ∃ ms : ℕ → Mat,
    (∀ k < (derivRequests parabola 2).length, (((parabolaProgram 2).run (fun _ => parabola.basis) (fun _ => 0) sched).thread j).out[k]? = some (.ok (ms k))) ∧
    derivWith parabola 2 ms ≠ parabola.deriv 2 := by
  obtain ⟨sched, -, -, h1, h2, -⟩ := C71_shared_false (fun _ => parabola.basis) (fun _ => 0) 0 1 (by norm_num) rfl 1 0 0 (parabolaProgram 2) (holds_new _)
    ⟨by simp [parabolaProgram, derivRequests, parabola, GSpline.nIntervals], rfl, rfl⟩ ⟨by simp [parabolaProgram, derivRequests, parabola, GSpline.nIntervals], rfl, rfl⟩
  have hl : (derivRequests parabola 2).length = 1 := by simp [derivRequests, parabola, GSpline.nIntervals]
  refine ⟨sched, fun j hj => ⟨fun _ => parabola.basis.derivMatrixImpl 1, fun k hk => ?_, ?_⟩⟩
  · have hk0 : k = 0 := by omega
    have : j = 0 ∨ j = 1 := by omega
    rcases this with rfl | rfl
    · rw [h1, hk0]; rfl
    · rw [h2, hk0]; rfl
  · rw [parabola_deriv.1, parabola_deriv.2]
    simp

/-- The hypotheses of `C71_deriv` (and of `C71_shared`, `C71_shared_held` and `C71_finishes`) are met: first derivatives of a new parabola, by two threads at once, are right in
every schedule that is long enough. -/
example : ∃ N, ∀ sched : List ℕ, N ≤ sched.count 1 → ∀ ms : ℕ → Mat,
    (∀ k < (derivRequests parabola 1).length, (((parabolaProgram 1).run (fun _ => parabola.basis) (fun _ => 0) sched).thread 1).out[k]? = some (.ok (ms k))) →
    derivWith parabola 1 ms = parabola.deriv 1 := by
  have hs : ∀ j, Starts ((parabolaProgram 1).thread j) (if j < 2 then derivRequests parabola 1 else []) := fun j => ⟨rfl, rfl, rfl⟩
  obtain ⟨N, hN⟩ := C71_finishes (fun _ => parabola.basis) (fun _ => 0) (fun _ => 1) _ (parabolaProgram 1) (fun _ => holds_new _) hs 1
  exact ⟨N, fun sched h ms hms => C71_deriv parabola _ _ (fun _ => 1) _ _ (fun _ => holds_new _) hs sched 1 1 rfl rfl le_rfl (hN sched h) ms hms⟩

/-- The hypotheses of `C71_private` are met: two threads with copies of the parabola. -/
example : ∃ N, ∀ sched : List ℕ, N ≤ sched.count 1 →
    (((parabolaProgram 2).run (fun _ => parabola.basis) id sched).thread 1).out = [.ok (parabola.basis.derivMatrixImpl 2)] := by
  have hs : ∀ j, Starts ((parabolaProgram 2).thread j) (if j < 2 then derivRequests parabola 2 else []) := fun j => ⟨rfl, rfl, rfl⟩
  obtain ⟨N, hN⟩ := C71_finishes (fun _ => parabola.basis) id (fun _ => 1) _ (parabolaProgram 2) (fun _ => holds_new _) hs 1
  refine ⟨N, fun sched h => (C71_private _ id (fun _ => 1) Function.injective_id _ _ (fun _ => holds_new _) hs sched 1 (hN sched h)).trans ?_⟩
  simp [derivRequests, parabola, GSpline.nIntervals]

/-- The hypotheses of `C71_turns_partial` are met with a shared object: one thread after the other. -/
example : Exclusive (fun _ => parabola.basis) (fun _ => 0) (parabolaProgram 2) (List.replicate 5 0 ++ List.replicate 5 1) := by
  simp [Exclusive, List.replicate, Sys.step, parabolaProgram, Thread.step, derivRequests, parabola, GSpline.nIntervals, Basis.cache0, enter]
  and_intros <;> intro i hi <;> split_ifs <;> simp_all

end GSplines.Props
