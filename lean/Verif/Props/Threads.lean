import Verif.Spec.Threads
import Verif.Proofs.Threads
import Verif.Props.GSpline

/-!
# Concurrent evaluation (C68)

`GSpline::value` is a `const` function, but it keeps the values of the basis functions in a member. Threads may evaluate different objects in any interleaving; threads
that evaluate one object must take turns, and without turns the result of one thread can be the value at the point of another.
-/

namespace GSplines.Props

open GSplines Spec Threads GSpline

/-- **C68**, the part that is true: any number of threads, any distribution over objects, any schedule in which threads that use the same object take turns point by
point. A thread that has finished has assigned the rows that a call without other threads returns, and nothing else. -/
theorem C68_turns_partial (obj : ℕ → ℕ) (g : ℕ → GSpline) (ts : ℕ → List ℝ) (rows : ℕ → List (List ℝ)) (hv : ∀ j, (g j).values (ts j) = .ok (rows j)) (s : Sys)
    (hs : ∀ j, Starts (s.thread j) (g j) (ts j)) (sched : List ℕ) (hx : Exclusive obj s sched) (j : ℕ) (hj : Finished ((s.run obj sched).thread j)) :
    ((s.run obj sched).thread j).out = (rows j).flatten := by
  have h0 : ∀ j, OnTrack (s.thread j) (s.mem (obj j)) ((rows j).flatten) := fun j => by
    obtain ⟨ls, e, hls⟩ := exec_calls (hv j)
    obtain ⟨h1, h2, h3⟩ := hs j
    rw [e] at h1
    cases h1
    refine ⟨_, hls, ?_⟩
    rw [h2, h3]; rfl
  obtain ⟨rest, h1, h2⟩ := run_exclusive obj (fun j => (rows j).flatten) sched s h0 hx j
  rw [hj.1] at h1
  rw [hj.2] at h2
  cases h1
  simpa [execAll] using h2

/-- Threads with objects of their own take turns whatever the scheduler does. -/
theorem exclusive_private (obj : ℕ → ℕ) (hobj : Function.Injective obj) (s : Sys) (sched : List ℕ) : Exclusive obj s sched := by
  induction sched generalizing s with
  | nil => trivial
  | cons j sched ih => exact ⟨fun i hij h => absurd (hobj h) hij, ih _⟩

/-- **C68**, threads that evaluate objects of their own, also copies of one spline: every interleaving of their accesses gives every thread the result of a call
without other threads. -/
theorem C68_private (obj : ℕ → ℕ) (hobj : Function.Injective obj) (g : ℕ → GSpline) (ts : ℕ → List ℝ) (rows : ℕ → List (List ℝ)) (hv : ∀ j, (g j).values (ts j) = .ok (rows j))
    (s : Sys) (hs : ∀ j, Starts (s.thread j) (g j) (ts j)) (sched : List ℕ) (j : ℕ) (hj : Finished ((s.run obj sched).thread j)) :
    ((s.run obj sched).thread j).out = (rows j).flatten :=
  C68_turns_partial obj g ts rows hv s hs sched (exclusive_private obj hobj s sched) j hj

/-- **C68**, no thread waits for another: there is a number of steps after which a thread has finished, in every schedule that lets it make them, whatever the others do. -/
theorem C68_finishes (obj : ℕ → ℕ) (s : Sys) (j : ℕ) : ∃ n, ∀ sched : List ℕ, n ≤ sched.count j → Finished ((s.run obj sched).thread j) :=
  ⟨(s.thread j).work, fun sched h => by rw [finished_iff, work_run]; omega⟩

/-- **C68 is false for a shared object**: for every spline of every basis and any two points of one interval, two threads that evaluate one object at these points can be
scheduled such that the first returns the value at the point of the second. -/
theorem C68_shared_false (g : GSpline) (t t' : ℝ) (row row' : List ℝ) (hv : g.value t = .ok row) (hv' : g.value t' = .ok row') (hi : g.getInterval t = g.getInterval t')
    (obj : ℕ → ℕ) (i j : ℕ) (hij : i ≠ j) (hobj : obj i = obj j) (s : Sys) (hs : Starts (s.thread i) g [t]) (hs' : Starts (s.thread j) g [t']) :
    ∃ sched : List ℕ, Finished ((s.run obj sched).thread i) ∧ Finished ((s.run obj sched).thread j) ∧
      ((s.run obj sched).thread i).out = row' ∧ ((s.run obj sched).thread j).out = row' := by
  obtain ⟨v, l, ops, e, eops, hl, -⟩ := row_parts hv
  obtain ⟨v', l', ops', e', eops', hl', hx'⟩ := row_parts hv'
  rw [hi, eops'] at eops
  cases eops
  obtain ⟨h1, h2, h3⟩ := hs
  obtain ⟨h1', h2', h3'⟩ := hs'
  have ht : callOps g [t] = .ok [l ++ ops.flatten] := by unfold callOps; rw [List.mapM_cons, e]; rfl
  have ht' : callOps g [t'] = .ok [l' ++ ops.flatten] := by unfold callOps; rw [List.mapM_cons, e']; rfl
  rw [ht] at h1
  rw [ht'] at h1'
  replace h1 := (Except.ok.inj h1).symm
  replace h1' := (Except.ok.inj h1').symm
  obtain ⟨c, r, ec, -⟩ := hl (s.mem (obj i)) (s.thread i).regs []
  -- the first thread fills the buffer
  have a1 := step_begin obj i _ _ s h2 h1
  have a2 := run_part obj i l ops.flatten (s.step obj i) (by rw [a1]; simp)
  set s2 := (s.step obj i).run obj (List.replicate l.length i) with hs2
  have m2i : s2.thread i = ⟨[], ops.flatten, r, []⟩ := by rw [a2]; simp [a1, ec, h3]
  have m2j : s2.thread j = s.thread j := by rw [a2]; simp [a1, Ne.symm hij]
  -- the second thread fills it again
  obtain ⟨c', r', ec', hc'⟩ := hl' (s2.mem (obj j)) (s.thread j).regs []
  have b1 := step_begin obj j _ _ s2 (by rw [m2j]; exact h2') (by rw [m2j]; exact h1')
  have b2 := run_part obj j l' ops.flatten (s2.step obj j) (by rw [b1]; simp)
  set s3 := (s2.step obj j).run obj (List.replicate l'.length j) with hs3
  have m3i : s3.thread i = ⟨[], ops.flatten, r, []⟩ := by rw [b2]; simp [b1, hij, m2i]
  have m3j : s3.thread j = ⟨[], ops.flatten, r', []⟩ := by rw [b2]; simp [b1, m2j, ec', h3']
  have m3 : s3.mem (obj i) = c' := by rw [b2]; simp [b1, m2j, ec', h3', hobj]
  -- both read
  obtain ⟨r2, e2⟩ := hx' c' r [] hc'
  obtain ⟨r3, e3⟩ := hx' c' r' [] hc'
  have d1 := run_part obj i ops.flatten [] s3 (by rw [m3i]; simp)
  set s4 := s3.run obj (List.replicate ops.flatten.length i) with hs4
  have m4i : s4.thread i = ⟨[], [], r2, row'⟩ := by rw [d1]; simp only [if_true, m3i, m3, e2, List.nil_append]
  have m4j : s4.thread j = ⟨[], ops.flatten, r', []⟩ := by rw [d1]; simp [Ne.symm hij, m3j]
  have m4 : s4.mem (obj j) = c' := by rw [d1, ← hobj]; simp only [if_true, m3i, m3, e2]
  have d2 := run_part obj j ops.flatten [] s4 (by rw [m4j]; simp)
  set s5 := s4.run obj (List.replicate ops.flatten.length j) with hs5
  have m5i : s5.thread i = ⟨[], [], r2, row'⟩ := by rw [d2]; simp [hij, m4i]
  have m5j : s5.thread j = ⟨[], [], r3, row'⟩ := by rw [d2]; simp only [if_true, m4j, m4, e3, List.nil_append]
  refine ⟨(i :: List.replicate l.length i) ++ ((j :: List.replicate l'.length j) ++ (List.replicate ops.flatten.length i ++ List.replicate ops.flatten.length j)), ?_⟩
  rw [run_append, show s.run obj (i :: List.replicate l.length i) = s2 from rfl, run_append, show s2.run obj (j :: List.replicate l'.length j) = s3 from rfl, run_append,
    ← hs4, ← hs5, m5i, m5j]
  exact ⟨⟨rfl, rfl⟩, ⟨rfl, rfl⟩, rfl, rfl⟩

/-- The line from `-1` to `1` over the interval from `0` to `2`. -/
noncomputable def lineSpline : GSpline := ⟨(0, 2), 1, .legendre 2, [0, 1], [2]⟩

theorem lineSpline_interval (t : ℝ) (ht : t ∈ Set.Icc (0 : ℝ) 2) : lineSpline.getInterval t = 0 := by
  have hp : Positive lineSpline := ⟨by simp [lineSpline], by simp [lineSpline]⟩
  refine getInterval_of_located hp ?_
  rcases ht.1.eq_or_lt with h | h
  · exact ⟨by simp [lineSpline], .inl ⟨by simp [brk, lineSpline, ← h], rfl⟩⟩
  · exact ⟨by simp [lineSpline], .inr (.inl ⟨by simpa [brk, lineSpline] using h, by simpa [brk, lineSpline] using ht.2⟩)⟩

theorem lineSpline_value (t : ℝ) (ht : t ∈ Set.Icc (0 : ℝ) 2) : lineSpline.value t = .ok [t - 1] := by
  have hc : Consistent lineSpline := by simp [Consistent, lineSpline, Basis.dim]
  have hb : lineSpline.basis.Valid := by simp [lineSpline, Basis.Valid]
  obtain ⟨v, hv, hlen, hvc⟩ := value_spec hb hc (lineSpline_interval t ht) (by simp [lineSpline]) (by simp [lineSpline, vecOf]) trivial
  have h0 := hvc 0 (by simp [lineSpline])
  have hl1 : v.length = 1 := hlen
  rw [hv]
  match v, hl1, h0 with
  | [x], _, h0 =>
    simp only [List.getElem?_cons_zero, Option.some.injEq] at h0
    rw [h0]
    simp [curve, piece, comb, lineSpline, Basis.dim, Finset.sum_range_succ, basisFn, window, vecOf, brk]
    simp [Spec.legendre]
    try ring

/-- Two threads evaluate the line at `0` and at `2`; thread `j ≥ 2` does nothing. -/
noncomputable def linePoints (j : ℕ) : List ℝ := if j = 0 then [0] else if j = 1 then [2] else []

theorem linePoints_values (j : ℕ) : ∃ rows, lineSpline.values (linePoints j) = .ok rows ∧ rows.flatten = (linePoints j).map (· - 1) := by
  have h0 := lineSpline_value 0 (by norm_num)
  have h2 := lineSpline_value 2 (by norm_num)
  unfold linePoints GSpline.values
  split_ifs
  · exact ⟨[[0 - 1]], by rw [List.mapM_cons, h0]; rfl, by simp⟩
  · exact ⟨[[2 - 1]], by rw [List.mapM_cons, h2]; rfl, by simp⟩
  · exact ⟨[], rfl, rfl⟩

/-- The program that starts these threads. -/
theorem lineProgram : ∃ s : Sys, ∀ j, Starts (s.thread j) lineSpline (linePoints j) := by
  have h : ∀ j, ∃ ls, callOps lineSpline (linePoints j) = .ok ls := fun j => by
    obtain ⟨rows, e, -⟩ := linePoints_values j
    obtain ⟨ls, e', -⟩ := exec_calls e
    exact ⟨ls, e'⟩
  choose ls hls using h
  exact ⟨⟨fun _ _ => 0, fun j => ⟨ls j, [], fun _ => 0, []⟩⟩, fun j => ⟨hls j, rfl, rfl⟩⟩

/-- The hypotheses of `C68_private` and `C68_turns_partial` are met: with two copies of the line every schedule with enough steps gives `-1` and `1`. -/
example : ∃ (s : Sys) (n : ℕ), ∀ sched : List ℕ, n ≤ sched.count 0 → n ≤ sched.count 1 →
    ((s.run id sched).thread 0).out = [-1] ∧ ((s.run id sched).thread 1).out = [1] := by
  obtain ⟨s, hs⟩ := lineProgram
  obtain ⟨n, hn⟩ := C68_finishes id s 0
  obtain ⟨m, hm⟩ := C68_finishes id s 1
  choose rows hr hr' using linePoints_values
  refine ⟨s, max n m, fun sched h0 h1 => ⟨?_, ?_⟩⟩
  · rw [C68_private id Function.injective_id (fun _ => lineSpline) linePoints rows hr s hs sched 0 (hn sched (le_trans (le_max_left _ _) h0)), hr']
    norm_num [linePoints]
  · rw [C68_private id Function.injective_id (fun _ => lineSpline) linePoints rows hr s hs sched 1 (hm sched (le_trans (le_max_right _ _) h1)), hr']
    norm_num [linePoints]

/-- **C68 is false for a shared object**, a case: two threads evaluate one line at `0` and at `2`; one schedule gives `1` to both. -/
theorem C68_shared_line_false : ∃ (s : Sys) (sched : List ℕ), (∀ j, Starts (s.thread j) lineSpline (linePoints j)) ∧ Finished ((s.run (fun _ => 0) sched).thread 0) ∧
    lineSpline.values (linePoints 0) = .ok [[-1]] ∧ ((s.run (fun _ => 0) sched).thread 0).out = [1] := by
  obtain ⟨s, hs⟩ := lineProgram
  have h0 := lineSpline_value 0 (by norm_num)
  have h2 := lineSpline_value 2 (by norm_num)
  obtain ⟨sched, f0, -, o0, -⟩ := C68_shared_false lineSpline 0 2 _ _ h0 h2 (by rw [lineSpline_interval 0 (by norm_num), lineSpline_interval 2 (by norm_num)])
    (fun _ => 0) 0 1 (by norm_num) rfl s (hs 0) (hs 1)
  refine ⟨s, sched, hs, f0, ?_, by rw [o0]; norm_num⟩
  unfold linePoints GSpline.values
  rw [if_pos rfl, List.mapM_cons, h0, show (0 : ℝ) - 1 = -1 by norm_num]
  rfl

/-- Turns on a shared object: first all the steps of one thread, then those of the other; `C68_turns_partial` applies. -/
example : ∃ (s : Sys) (sched : List ℕ), (∀ j, Starts (s.thread j) lineSpline (linePoints j)) ∧ Exclusive (fun _ => 0) s sched ∧
    Finished ((s.run (fun _ => 0) sched).thread 0) ∧ Finished ((s.run (fun _ => 0) sched).thread 1) := by
  obtain ⟨s, hs⟩ := lineProgram
  -- a thread that runs alone is exclusive while the others are idle
  have key : ∀ (j n : ℕ) (s : Sys), (∀ i, i ≠ j → (s.thread i).cur = []) → Exclusive (fun _ => 0) s (List.replicate n j) := by
    intro j n
    induction n with
    | zero => intro s _; trivial
    | succ n ih =>
      intro s h
      rw [List.replicate_succ]
      refine ⟨fun i hi _ => h i hi, ih _ fun i hi => ?_⟩
      simp only [Sys.step, if_neg hi]
      exact h i hi
  have app : ∀ (a b : List ℕ) (s : Sys), Exclusive (fun _ => 0) s a → Exclusive (fun _ => 0) (s.run (fun _ => 0) a) b → Exclusive (fun _ => 0) s (a ++ b) := by
    intro a
    induction a with
    | nil => intro b s _ h; exact h
    | cons x a ih => intro b s h h'; exact ⟨h.1, ih b _ h.2 h'⟩
  have other : ∀ (j n : ℕ) (s : Sys) (i : ℕ), i ≠ j → (s.run (fun _ => 0) (List.replicate n j)).thread i = s.thread i := by
    intro j n
    induction n with
    | zero => intro s i _; rfl
    | succ n ih =>
      intro s i hi
      rw [List.replicate_succ, show s.run (fun _ => 0) (j :: List.replicate n j) = (s.step (fun _ => 0) j).run (fun _ => 0) (List.replicate n j) from rfl, ih _ i hi]
      simp only [Sys.step, if_neg hi]
  obtain ⟨n, hn⟩ := C68_finishes (fun _ => 0) s 0
  obtain ⟨m, hm⟩ := C68_finishes (fun _ => 0) s 1
  have c0 := hn (List.replicate n 0) (by simp)
  refine ⟨s, List.replicate n 0 ++ List.replicate m 1, hs, app _ _ _ (key 0 n s fun i _ => (hs i).2.1) (key 1 m _ fun i hi => ?_), hn _ (by simp), hm _ ?_⟩
  · by_cases h : i = 0
    · rw [h]; exact c0.2
    · rw [other 0 n s i h]; exact (hs i).2.1
  · rw [List.count_append]; simp

end GSplines.Props
