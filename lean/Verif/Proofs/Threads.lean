import Verif.Spec.Threads
import Verif.Proofs.GSpline

/-!
# Lemmas on concurrent evaluation
-/

namespace GSplines.Threads

open GSplines Spec

/-- All accesses of a list in one go. -/
def execAll : List Op → Vec → Regs → List ℝ → Vec × Regs × List ℝ
  | [], b, r, o => (b, r, o)
  | op :: l, b, r, o => execAll l (op.exec b r o).1 (op.exec b r o).2.1 (op.exec b r o).2.2

theorem execAll_append (l l' : List Op) (b : Vec) (r : Regs) (o : List ℝ) :
    execAll (l ++ l') b r o = execAll l' (execAll l b r o).1 (execAll l b r o).2.1 (execAll l b r o).2.2 := by
  induction l generalizing b r o with
  | nil => rfl
  | cons op l ih => simp only [List.cons_append, execAll]; exact ih _ _ _

theorem execAll_zero (n : ℕ) (b : Vec) (r : Regs) (o : List ℝ) : execAll (zeroOps n) b r o = (fun k => if k < n then 0 else b k, r, o) := by
  unfold zeroOps
  induction n with
  | zero => simp [execAll]
  | succ n ih =>
    rw [List.range_succ, List.map_append, execAll_append, ih]
    simp only [List.map_cons, List.map_nil, execAll, Op.exec]
    congr 1
    funext k
    unfold setAt
    by_cases h : k = n
    · subst h; simp
    · rw [if_neg h]
      dsimp only
      by_cases h' : k < n
      · rw [if_pos h', if_pos (by omega)]
      · rw [if_neg h', if_neg (by omega)]

/-- The loop of the three term recurrence. -/
theorem execAll_rec (s : ℝ) (D n : ℕ) (hn : n + 2 ≤ D) (b b' : Vec) (r : Regs) (o : List ℝ) (hb : ∀ k < D, b k = b' k) :
    ∃ c r', execAll ((List.range' 1 n).flatMap fun i =>
      [.load i 0, .load (i - 1) 1, .store (i + 1) fun r => 1 / ((i : ℝ) + 1) * ((2 * (i : ℝ) + 1) * s * r 0 - (i : ℝ) * r 1)]) b r o = (c, r', o) ∧
      ∀ k < D, c k = (List.range' 1 n).foldl (fun st i => Legendre.recBody s i st) b' k := by
  induction n with
  | zero => exact ⟨b, r, rfl, hb⟩
  | succ n ih =>
    obtain ⟨c, r', e, h⟩ := ih (by omega)
    rw [List.range'_concat, List.flatMap_append, List.foldl_append, execAll_append, e]
    generalize (List.range' 1 n).foldl (fun st i => Legendre.recBody s i st) b' = B at h ⊢
    refine ⟨_, _, rfl, fun k hk => ?_⟩
    simp only [one_mul, Op.exec, List.foldl_cons, List.foldl_nil, Legendre.recBody]
    unfold setAt
    by_cases hk' : k = 1 + n + 1
    · rw [if_pos hk', if_pos hk', ← h (1 + n) (by omega), ← h (1 + n - 1) (by omega)]
      simp
    · rw [if_neg hk', if_neg hk', h k hk]

theorem exec_legendre {dim : ℕ} (h2 : 2 ≤ dim) (s : ℝ) (b : Vec) (r : Regs) (o : List ℝ) :
    ∃ c r', execAll (legendreOps dim s) b r o = (c, r', o) ∧ ∀ k < dim, c k = Legendre.values dim s k := by
  unfold legendreOps
  rw [execAll_append, execAll_append, execAll_zero]
  simp only [execAll, Op.exec]
  exact execAll_rec s dim _ (by omega) _ _ _ _ fun k hk => by
    unfold setAt
    split_ifs <;> simp_all

/-- The loop of the barycentric formula. -/
theorem execAll_bary (x bw : Vec) (s : ℝ) (D n : ℕ) (hn : n ≤ D) (b b' : Vec) (r : Regs) (o : List ℝ) (z : ℝ) (hz : r 2 = z) (hb : ∀ k < D, b k = b' k) :
    ∃ c r', execAll ((List.range n).flatMap fun j =>
          [.store j fun _ => bw j / (s - x j), .calc fun r => setAt r 2 (r 2 + bw j / (s - x j))]) b r o = (c, r', o) ∧
      r' 2 = ((List.range n).foldl (fun (st : Vec × ℝ) j => (setAt st.1 j (bw j / (s - x j)), st.2 + bw j / (s - x j))) (b', z)).2 ∧
      ∀ k < D, c k = ((List.range n).foldl (fun (st : Vec × ℝ) j => (setAt st.1 j (bw j / (s - x j)), st.2 + bw j / (s - x j))) (b', z)).1 k := by
  induction n with
  | zero => exact ⟨b, r, rfl, hz, hb⟩
  | succ n ih =>
    obtain ⟨c, r', e, h1, h⟩ := ih (by omega)
    rw [List.range_succ, List.flatMap_append, List.foldl_append, execAll_append, e]
    refine ⟨_, _, rfl, ?_, fun k hk => ?_⟩
    · simp [execAll, Op.exec, setAt, h1]
    · simp only [execAll, Op.exec, List.foldl_cons, List.foldl_nil]
      unfold setAt
      split_ifs
      · rfl
      · exact h k hk

theorem execAll_scale (n : ℕ) (b : Vec) (r : Regs) (o : List ℝ) :
    ∃ c r', execAll ((List.range n).flatMap fun k => [.load k 0, .store k fun r => r 0 / r 2]) b r o = (c, r', o) ∧ r' 2 = r 2 ∧ (∀ k < n, c k = b k / r 2) ∧ ∀ k, n ≤ k → c k = b k := by
  induction n with
  | zero => exact ⟨b, r, rfl, rfl, fun k hk => absurd hk (by omega), fun _ _ => rfl⟩
  | succ n ih =>
    obtain ⟨c, r', e, h1, h, h'⟩ := ih
    rw [List.range_succ, List.flatMap_append, execAll_append, e]
    refine ⟨_, _, rfl, ?_, fun k hk => ?_, fun k hk => ?_⟩
    · simp [execAll, Op.exec, setAt, h1]
    · simp only [execAll, Op.exec]
      unfold setAt
      by_cases hk' : k = n
      · rw [if_pos hk']; simp [h1, h' n le_rfl, hk']
      · rw [if_neg hk']; exact h k (by omega)
    · simp only [execAll, Op.exec]
      unfold setAt
      rw [if_neg (by omega)]; exact h' k (by omega)

theorem exec_lagrange (n : ℕ) (x : Vec) (s tau : ℝ) (b : Vec) (r : Regs) (o : List ℝ) :
    ∃ c r', execAll (lagrangeOps n x s) b r o = (c, r', o) ∧ ∀ k < n, c k = Lagrange.evalOnWindow n x s tau k := by
  unfold lagrangeOps Lagrange.evalOnWindow
  rw [execAll_append, execAll_zero]
  cases (List.range n).find? (fun j => Lagrange.almostEqual s (x j) tol9) with
  | some j =>
    refine ⟨_, _, rfl, fun k hk => ?_⟩
    simp only [Op.exec]
    unfold setAt
    split_ifs
    · rfl
    · simp [hk]
  | none =>
    dsimp only
    rw [execAll_append, execAll_append]
    simp only [execAll, Op.exec]
    obtain ⟨c, r', e, h1, h⟩ := execAll_bary x (Lagrange.baryWeights n x) s n n le_rfl (fun k => if k < n then 0 else b k) (fun _ => 0) (setAt r 2 0) o 0 (by simp [setAt])
      (fun k hk => by simp [hk])
    rw [e]
    obtain ⟨c', r'', e', -, h', -⟩ := execAll_scale n c r' o
    refine ⟨c', r'', e', fun k hk => ?_⟩
    rw [h' k hk, h k hk, h1]
    simp only [Lagrange.baryLoop, forLoop, Nat.sub_zero, List.range_eq_range']

theorem exec_stores (n : ℕ) (v : ℕ → ℝ) (b : Vec) (r : Regs) (o : List ℝ) :
    ∃ c, execAll ((List.range n).map fun k => .store k fun _ => v k) b r o = (c, r, o) ∧ ∀ k < n, c k = v k := by
  induction n with
  | zero => exact ⟨b, rfl, fun k hk => absurd hk (by omega)⟩
  | succ n ih =>
    obtain ⟨c, e, h⟩ := ih
    rw [List.range_succ, List.map_append, execAll_append, e]
    refine ⟨_, rfl, fun k hk => ?_⟩
    simp only [Op.exec]
    unfold setAt
    by_cases hk' : k = n
    · rw [if_pos hk', hk']
    · rw [if_neg hk']; exact h k (by omega)

theorem exec_fill {b : Basis} {s tau : ℝ} {v : Vec} (h : b.evalOnWindow s tau = .ok v) :
    ∃ l, fillOps b s tau = .ok l ∧ ∀ (buf : Vec) (r : Regs) (o : List ℝ), ∃ c r', execAll l buf r o = (c, r', o) ∧ ∀ k < b.dim, c k = v k := by
  cases b with
  | legendre d =>
    simp only [Basis.evalOnWindow, Legendre.evalOnWindow] at h
    by_cases hd : d < 2
    · rw [if_pos hd] at h; cases h
    · rw [if_neg hd] at h
      cases h
      exact ⟨_, if_neg hd, fun buf r o => exec_legendre (by omega) s buf r o⟩
  | lagrange x =>
    cases h
    exact ⟨_, rfl, fun buf r o => exec_lagrange x.length (vecOf x) s tau buf r o⟩
  | b0101 a =>
    cases h
    refine ⟨_, rfl, fun buf r o => ?_⟩
    obtain ⟨c, e, h⟩ := exec_stores 6 (B0101.evalOnWindow a s tau) buf r o
    exact ⟨c, r, e, h⟩

theorem exec_dot (dim : ℕ) (seg : Vec) (b : Vec) (r : Regs) (o : List ℝ) :
    ∃ r', execAll (dotOps dim seg) b r o = (b, r', o ++ [Vec.dot dim seg b]) := by
  have loop : ∀ n (r : Regs), r 3 = 0 → ∃ r', execAll ((List.range n).flatMap fun k => [.load k 0, .calc fun r => setAt r 3 (r 3 + seg k * r 0)]) b r o = (b, r', o) ∧
      r' 3 = Vec.dot n seg b := by
    intro n r hr
    induction n with
    | zero => exact ⟨r, rfl, by rw [hr]; simp [Vec.dot]⟩
    | succ n ih =>
      obtain ⟨r', e, h⟩ := ih
      rw [List.range_succ, List.flatMap_append, execAll_append, e]
      refine ⟨_, rfl, ?_⟩
      simp only [Op.exec]
      simp [setAt, h, Vec.dot, Finset.sum_range_succ]
  unfold dotOps
  rw [execAll_append, execAll_append]
  simp only [execAll, Op.exec]
  obtain ⟨r', e, h⟩ := loop dim (setAt r 3 0) (by simp [setAt])
  rw [e]
  exact ⟨r', by dsimp only; rw [h]⟩

theorem dot_congr {n : ℕ} {u v v' : Vec} (h : ∀ k < n, v k = v' k) : Vec.dot n u v = Vec.dot n u v' :=
  Finset.sum_congr rfl fun k hk => by rw [h k (Finset.mem_range.mp hk)]

theorem exec_reads {S : ℕ → Res (List ℝ)} {dim : ℕ} {v : Vec} (l : List ℕ) {row : List ℝ}
    (h : (l.mapM fun c => do let seg ← S c; return Vec.dot dim (vecOf seg) v) = .ok row) :
    ∃ ops, (l.mapM fun c => do let seg ← S c; return dotOps dim (vecOf seg)) = .ok ops ∧
      ∀ (buf : Vec) (r : Regs) (o : List ℝ), (∀ k < dim, buf k = v k) → ∃ r', execAll ops.flatten buf r o = (buf, r', o ++ row) := by
  induction l generalizing row with
  | nil =>
    cases h
    exact ⟨[], rfl, fun buf r o _ => ⟨r, by simp [execAll]⟩⟩
  | cons c l ih =>
    rw [List.mapM_cons] at h
    cases hS : S c with
    | error e => rw [hS] at h; cases h
    | ok seg =>
      rw [hS] at h
      cases hl : (l.mapM fun c => do let seg ← S c; return Vec.dot dim (vecOf seg) v) with
      | error e => rw [hl] at h; cases h
      | ok rest =>
        rw [hl] at h
        cases h
        obtain ⟨ops, e, hx⟩ := ih hl
        refine ⟨dotOps dim (vecOf seg) :: ops, ?_, fun buf r o hb => ?_⟩
        · rw [List.mapM_cons, hS, e]; rfl
        · obtain ⟨r1, e1⟩ := exec_dot dim (vecOf seg) buf r o
          obtain ⟨r2, e2⟩ := hx buf r1 (o ++ [Vec.dot dim (vecOf seg) buf]) hb
          refine ⟨r2, ?_⟩
          rw [List.flatten_cons, execAll_append, e1, e2, dot_congr hb]
          simp

/-- The accesses of one point: the buffer is filled, then the rows are computed from it. -/
theorem row_parts {g : GSpline} {t : ℝ} {row : List ℝ} (h : g.value t = .ok row) :
    ∃ (v : Vec) (l : List Op) (ops : List (List Op)), rowOps g t = .ok (l ++ ops.flatten) ∧
      ((List.range g.codim).mapM fun c => do let seg ← g.coefficientSegment (g.getInterval t) c; return dotOps g.basis.dim (vecOf seg)) = .ok ops ∧
      (∀ (buf : Vec) (r : Regs) (o : List ℝ), ∃ c r', execAll l buf r o = (c, r', o) ∧ ∀ k < g.basis.dim, c k = v k) ∧
      ∀ (buf : Vec) (r : Regs) (o : List ℝ), (∀ k < g.basis.dim, buf k = v k) → ∃ r', execAll ops.flatten buf r o = (buf, r', o ++ row) := by
  unfold GSpline.value at h
  dsimp only at h
  cases h1 : g.intervalToWindow t (g.getInterval t) with
  | error e => rw [h1] at h; cases h
  | ok s =>
    cases h2 : rd g.tau (g.getInterval t) with
    | error e => rw [h1, h2] at h; cases h
    | ok tau =>
      cases h3 : g.basis.evalOnWindow s tau with
      | error e => rw [h1, h2] at h; change (do let buf ← g.basis.evalOnWindow s tau; _) = _ at h; rw [h3] at h; cases h
      | ok v =>
        rw [h1, h2] at h
        change (do let buf ← g.basis.evalOnWindow s tau; _) = _ at h
        rw [h3] at h
        obtain ⟨ops, e, hx⟩ := exec_reads (S := fun c => g.coefficientSegment (g.getInterval t) c) (List.range g.codim) h
        obtain ⟨l, el, hl⟩ := exec_fill h3
        refine ⟨v, l, ops, ?_, e, hl, hx⟩
        unfold rowOps
        dsimp only
        rw [h1, h2]
        change (do let fill ← fillOps g.basis s tau; _) = _
        rw [el]
        change (List.mapM (m := Res) _ (List.range g.codim) >>= _) = _
        rw [e]; rfl

/-- Without interference the accesses of one point assign the row that the sequential model returns, whatever the buffer contained. -/
theorem exec_row {g : GSpline} {t : ℝ} {row : List ℝ} (h : g.value t = .ok row) :
    ∃ l, rowOps g t = .ok l ∧ ∀ (buf : Vec) (r : Regs) (o : List ℝ), (execAll l buf r o).2.2 = o ++ row := by
  obtain ⟨v, l, ops, e, -, hl, hx⟩ := row_parts h
  refine ⟨_, e, fun buf r o => ?_⟩
  obtain ⟨c, r', e1, hc⟩ := hl buf r o
  obtain ⟨r2, e2⟩ := hx c r' o hc
  rw [execAll_append, e1, e2]

/-- A list of points. -/
inductive Expects : List (List Op) → List ℝ → Prop
  | nil : Expects [] []
  | cons (l : List Op) (ls : List (List Op)) (row rows : List ℝ) :
      (∀ (buf : Vec) (r : Regs) (o : List ℝ), (execAll l buf r o).2.2 = o ++ row) → Expects ls rows → Expects (l :: ls) (row ++ rows)

theorem exec_calls {g : GSpline} {ts : List ℝ} {rows : List (List ℝ)} (h : g.values ts = .ok rows) : ∃ ls, callOps g ts = .ok ls ∧ Expects ls rows.flatten := by
  unfold GSpline.values at h
  unfold callOps
  induction ts generalizing rows with
  | nil => cases h; exact ⟨[], rfl, .nil⟩
  | cons t ts ih =>
    rw [List.mapM_cons] at h
    cases h1 : g.value t with
    | error e => rw [h1] at h; cases h
    | ok row =>
      rw [h1] at h
      cases h2 : ts.mapM g.value with
      | error e => rw [h2] at h; cases h
      | ok rest =>
        rw [h2] at h
        cases h
        obtain ⟨ls, e, hls⟩ := ih h2
        obtain ⟨l, el, hl⟩ := exec_row h1
        exact ⟨l :: ls, by rw [List.mapM_cons, el, e]; rfl, .cons l ls row _ hl hls⟩

/-- The state of a thread which, if it is not disturbed, will end with the result `goal`. -/
def OnTrack (th : Thread) (buf : Vec) (goal : List ℝ) : Prop :=
  ∃ rest, Expects th.todo rest ∧ (execAll th.cur buf th.regs th.out).2.2 ++ rest = goal

theorem onTrack_step {th : Thread} {buf : Vec} {goal : List ℝ} (h : OnTrack th buf goal) : OnTrack (th.step buf).2 (th.step buf).1 goal := by
  obtain ⟨rest, h1, h2⟩ := h
  unfold Thread.step
  obtain ⟨todo, cur, regs, out⟩ := th
  cases cur with
  | cons o l => exact ⟨rest, h1, h2⟩
  | nil =>
    cases h1 with
    | nil => exact ⟨[], .nil, h2⟩
    | cons l ls row rows hl hls =>
      refine ⟨rows, hls, ?_⟩
      dsimp only
      rw [hl]
      simpa [execAll] using h2

theorem onTrack_idle {th : Thread} {buf buf' : Vec} {goal : List ℝ} (hc : th.cur = []) (h : OnTrack th buf goal) : OnTrack th buf' goal := by
  obtain ⟨rest, h1, h2⟩ := h
  refine ⟨rest, h1, ?_⟩
  rw [hc] at h2 ⊢
  exact h2

/-- The invariant of all threads under exclusion. -/
theorem run_exclusive (obj : ℕ → ℕ) (goal : ℕ → List ℝ) (sched : List ℕ) (s : Sys) (h : ∀ j, OnTrack (s.thread j) (s.mem (obj j)) (goal j)) (hx : Exclusive obj s sched) :
    ∀ j, OnTrack ((s.run obj sched).thread j) ((s.run obj sched).mem (obj j)) (goal j) := by
  induction sched generalizing s with
  | nil => exact h
  | cons j sched ih =>
    refine ih (s.step obj j) (fun i => ?_) hx.2
    unfold Sys.step
    dsimp only
    by_cases hij : i = j
    · subst hij
      rw [if_pos rfl, if_pos rfl]
      exact onTrack_step (h i)
    · rw [if_neg hij]
      by_cases ho : obj i = obj j
      · rw [if_pos ho]
        exact onTrack_idle (hx.1 i hij ho) (h i)
      · rw [if_neg ho]
        exact h i

/-- The number of steps that a thread has still to make. -/
def Thread.work (th : Thread) : ℕ := th.cur.length + (th.todo.map fun l => l.length + 1).sum

theorem work_step (th : Thread) (buf : Vec) : (th.step buf).2.work = th.work - 1 := by
  obtain ⟨todo, cur, regs, out⟩ := th
  unfold Thread.step Thread.work
  cases cur with
  | cons o l => simp <;> omega
  | nil =>
    cases todo with
    | nil => simp
    | cons c cs => simp <;> omega

theorem work_run (obj : ℕ → ℕ) (sched : List ℕ) (s : Sys) (j : ℕ) : ((s.run obj sched).thread j).work = (s.thread j).work - sched.count j := by
  induction sched generalizing s with
  | nil => simp [Sys.run]
  | cons i sched ih =>
    have := ih (s.step obj i)
    rw [show s.run obj (i :: sched) = (s.step obj i).run obj sched from rfl, this]
    by_cases hij : j = i
    · subst hij
      simp only [Sys.step, if_true, work_step, List.count_cons_self]
      omega
    · simp only [Sys.step, if_neg hij]
      rw [List.count_cons_of_ne (Ne.symm hij)]

theorem finished_iff (th : Thread) : Finished th ↔ th.work = 0 := by
  obtain ⟨todo, cur, regs, out⟩ := th
  unfold Finished Thread.work
  cases todo <;> cases cur <;> simp

/-- A thread that is left alone for a part of its accesses. -/
theorem run_part (obj : ℕ → ℕ) (j : ℕ) (l1 l2 : List Op) (s : Sys) (h : (s.thread j).cur = l1 ++ l2) :
    s.run obj (List.replicate l1.length j) =
      ⟨fun o => if o = obj j then (execAll l1 (s.mem (obj j)) (s.thread j).regs (s.thread j).out).1 else s.mem o,
       fun i => if i = j then ⟨(s.thread j).todo, l2, (execAll l1 (s.mem (obj j)) (s.thread j).regs (s.thread j).out).2.1,
          (execAll l1 (s.mem (obj j)) (s.thread j).regs (s.thread j).out).2.2⟩ else s.thread i⟩ := by
  induction l1 generalizing s with
  | nil =>
    obtain ⟨mem, thread⟩ := s
    simp only [List.length_nil, List.replicate_zero, Sys.run, List.foldl_nil, execAll, Sys.mk.injEq]
    refine ⟨?_, ?_⟩
    · funext o
      by_cases ho : o = obj j
      · rw [if_pos ho, ho]
      · rw [if_neg ho]
    · funext i
      by_cases hi : i = j
      · subst hi
        rw [if_pos rfl]
        simp only [List.nil_append] at h
        cases ht : thread i with
        | mk a b c d => rw [ht] at h; simp only at h; rw [h]
      · rw [if_neg hi]
  | cons a l1 ih =>
    rw [List.length_cons, List.replicate_succ, show s.run obj (j :: List.replicate l1.length j) = (s.step obj j).run obj (List.replicate l1.length j) from rfl]
    have hst : (s.thread j).step (s.mem (obj j)) = ((a.exec (s.mem (obj j)) (s.thread j).regs (s.thread j).out).1,
        ⟨(s.thread j).todo, l1 ++ l2, (a.exec (s.mem (obj j)) (s.thread j).regs (s.thread j).out).2.1, (a.exec (s.mem (obj j)) (s.thread j).regs (s.thread j).out).2.2⟩) := by
      unfold Thread.step
      rw [h]
      rfl
    rw [ih]
    · simp only [Sys.step, hst, if_true, Sys.mk.injEq]
      refine ⟨?_, ?_⟩
      · funext o
        by_cases ho : o = obj j
        · rw [if_pos ho, if_pos ho]; rfl
        · rw [if_neg ho, if_neg ho, if_neg ho]
      · funext i
        by_cases hi : i = j
        · rw [if_pos hi, if_pos hi]; rfl
        · rw [if_neg hi, if_neg hi, if_neg hi]
    · simp only [Sys.step, hst, if_true]

/-- A thread begins its next point. -/
theorem step_begin (obj : ℕ → ℕ) (j : ℕ) (c : List Op) (cs : List (List Op)) (s : Sys) (h : (s.thread j).cur = []) (h' : (s.thread j).todo = c :: cs) :
    s.step obj j = ⟨s.mem, fun i => if i = j then ⟨cs, c, (s.thread j).regs, (s.thread j).out⟩ else s.thread i⟩ := by
  have hst : (s.thread j).step (s.mem (obj j)) = (s.mem (obj j), ⟨cs, c, (s.thread j).regs, (s.thread j).out⟩) := by
    unfold Thread.step
    rw [h, h']
  simp only [Sys.step, hst, Sys.mk.injEq, and_true]
  funext o
  by_cases ho : o = obj j
  · rw [if_pos ho, ho]
  · rw [if_neg ho]

theorem run_append (obj : ℕ → ℕ) (s : Sys) (a b : List ℕ) : s.run obj (a ++ b) = (s.run obj a).run obj b := List.foldl_append

end GSplines.Threads
