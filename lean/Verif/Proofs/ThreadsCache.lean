import Verif.Spec.ThreadsCache
import Verif.Proofs.BasisCache

/-!
# Concurrent derivation: lemmas
-/

namespace GSplines.Derivers

open GSplines Spec.Derivers

/-- The orders of which the thread has not got the matrix yet. -/
def Thread.owed (th : Thread) : List ℕ :=
  match th.at_ with
  | .idle => th.todo
  | .fill d _ => d :: th.todo
  | .ret d => d :: th.todo

/-- The matrices read so far answer the requests made so far. -/
def Answers (R : ℕ → Res Mat → Prop) (reqs : List ℕ) (th : Thread) : Prop := ∃ done, reqs = done ++ th.owed ∧ List.Forall₂ R done th.out

theorem answers_start (R : ℕ → Res Mat → Prop) {reqs : List ℕ} {th : Thread} (h : Starts th reqs) : Answers R reqs th :=
  ⟨[], by simp [Thread.owed, h.2.1, h.1], by rw [h.2.2]; exact .nil⟩

theorem answers_finished {R : ℕ → Res Mat → Prop} {reqs : List ℕ} {th : Thread} (h : Answers R reqs th) (hf : Finished th) : List.Forall₂ R reqs th.out := by
  obtain ⟨done, h1, h2⟩ := h
  simp only [Thread.owed, hf.2, hf.1, List.append_nil] at h1
  exact h1 ▸ h2

theorem enter_cases (d c : ℕ) : (c ≠ d + 1 ∧ enter d c = .fill d c) ∨ (c = d + 1 ∧ enter d c = .ret d) := by
  unfold enter; by_cases h : c = d + 1 <;> simp [h]

/-- A step preserves the answers if the entry that is read is a right one. -/
theorem answers_step {b : Basis} {R : ℕ → Res Mat → Prop} {reqs : List ℕ} {th : Thread} {v : List Mat} (h : Answers R reqs th)
    (hr : ∀ d, th.at_ = .ret d → ∃ m, v[d]? = some m ∧ R d (.ok m)) : Answers R reqs (th.step b v).2 := by
  obtain ⟨done, h1, h2⟩ := h
  obtain ⟨todo, at_, out⟩ := th
  cases at_ with
  | idle =>
    cases todo with
    | nil => exact ⟨done, h1, h2⟩
    | cons d ds =>
      refine ⟨done, ?_, h2⟩
      rw [h1]
      simp only [Thread.step, Thread.owed]
      by_cases hv : v.length ≤ d
      · rcases enter_cases d v.length with ⟨-, e⟩ | ⟨-, e⟩ <;> simp [hv, e]
      · simp [hv]
  | fill d c =>
    refine ⟨done, ?_, h2⟩
    rw [h1]
    simp only [Thread.step, Thread.owed]
    rcases enter_cases d (c + 1) with ⟨-, e⟩ | ⟨-, e⟩ <;> simp [e]
  | ret d =>
    obtain ⟨m, hm, hR⟩ := hr d rfl
    refine ⟨done ++ [d], by simp [h1, Thread.step, Thread.owed], ?_⟩
    simp only [Thread.step, hm]
    exact List.rel_append h2 (.cons hR .nil)

/-! ## any schedule -/

/-- What holds of an object in every schedule: entry `k` is the matrix of an order between `min k n` and `k`. -/
def MemInv (b : Basis) (n : ℕ) (v : List Mat) : Prop :=
  n ≤ v.length ∧ ∀ k (h : k < v.length), ∃ i, v[k] = b.derivMatrixImpl i ∧ min k n ≤ i ∧ i ≤ k

/-- What holds of a thread in every schedule. -/
def AtInv (n : ℕ) (v : List Mat) : At → Prop
  | .idle => True
  | .fill d c => n ≤ c ∧ c ≤ v.length ∧ c ≤ d
  | .ret d => d < v.length

theorem atInv_mono {n : ℕ} {v w : List Mat} {a : At} (h : AtInv n v a) (hv : v.length ≤ w.length) : AtInv n w a := by
  cases a with
  | idle => trivial
  | fill d c => exact ⟨h.1, h.2.1.trans hv, h.2.2⟩
  | ret d => exact lt_of_lt_of_le h hv

theorem step_inv {b : Basis} {n : ℕ} {th : Thread} {v : List Mat} (hm : MemInv b n v) (ha : AtInv n v th.at_) :
    MemInv b n (th.step b v).1 ∧ AtInv n (th.step b v).1 (th.step b v).2.at_ ∧ v.length ≤ (th.step b v).1.length := by
  obtain ⟨todo, at_, out⟩ := th
  cases at_ with
  | idle =>
    cases todo with
    | nil => exact ⟨hm, trivial, le_rfl⟩
    | cons d ds =>
      refine ⟨hm, ?_, le_rfl⟩
      simp only [Thread.step]
      by_cases hv : v.length ≤ d
      · rcases enter_cases d v.length with ⟨-, e⟩ | ⟨h, e⟩
        · simp only [hv, if_true, e]
          exact ⟨hm.1, le_rfl, hv⟩
        · omega
      · simp only [hv, if_false]
        exact not_le.1 hv
  | fill d c =>
    obtain ⟨h1, h2, h3⟩ := ha
    refine ⟨⟨by simp [Thread.step]; have := hm.1; omega, fun k hk => ?_⟩, ?_, by simp [Thread.step]⟩
    · simp only [Thread.step, List.length_append, List.length_singleton] at hk
      rcases Nat.lt_or_ge k v.length with h | h
      · obtain ⟨i, e, hi⟩ := hm.2 k h
        exact ⟨i, by simpa [Thread.step, List.getElem_append_left h] using e, hi⟩
      · have : k = v.length := by omega
        subst this
        refine ⟨c, by simp [Thread.step], ?_, h2⟩
        exact (min_le_right _ _).trans h1
    · simp only [Thread.step]
      rcases enter_cases d (c + 1) with ⟨h, e⟩ | ⟨h, e⟩
      · rw [e]
        refine ⟨by omega, ?_, by omega⟩
        simp; omega
      · rw [e]
        change d < _
        simp; omega
  | ret d => exact ⟨hm, trivial, le_rfl⟩

/-- In every schedule: the matrix that answers a request of order `d` has an order between `min d n` and `d`. -/
def Between (b : Basis) (n d : ℕ) (r : Res Mat) : Prop := ∃ i, r = .ok (b.derivMatrixImpl i) ∧ min d n ≤ i ∧ i ≤ d

/-- The invariant of the program in every schedule. -/
structure SysInv (b : ℕ → Basis) (obj : ℕ → ℕ) (n : ℕ → ℕ) (reqs : ℕ → List ℕ) (s : Sys) : Prop where
  mem : ∀ o, MemInv (b o) (n o) (s.mem o)
  at_ : ∀ j, AtInv (n (obj j)) (s.mem (obj j)) (s.thread j).at_
  ans : ∀ j, Answers (Between (b (obj j)) (n (obj j))) (reqs j) (s.thread j)

theorem sysInv_step {b : ℕ → Basis} {obj n : ℕ → ℕ} {reqs : ℕ → List ℕ} {s : Sys} (h : SysInv b obj n reqs s) (j : ℕ) : SysInv b obj n reqs (s.step b obj j) := by
  obtain ⟨h1, h2, h3⟩ := step_inv (h.mem (obj j)) (h.at_ j)
  refine ⟨fun o => ?_, fun i => ?_, fun i => ?_⟩
  · by_cases ho : o = obj j
    · subst ho; simpa [Sys.step] using h1
    · simpa [Sys.step, ho] using h.mem o
  · by_cases hi : i = j
    · subst hi; simpa [Sys.step] using h2
    · by_cases ho : obj i = obj j
      · simp only [Sys.step, hi, ho, if_true, if_false]
        exact atInv_mono (ho ▸ h.at_ i) h3
      · simpa [Sys.step, hi, ho] using h.at_ i
  · by_cases hi : i = j
    · subst hi
      simp only [Sys.step, if_true]
      refine answers_step (h.ans i) fun d hd => ?_
      have hlt : d < (s.mem (obj i)).length := by have := h.at_ i; rwa [hd] at this
      obtain ⟨k, e, hk⟩ := (h.mem (obj i)).2 d hlt
      exact ⟨_, List.getElem?_eq_getElem hlt, k, by rw [e], hk⟩
    · simpa [Sys.step, hi] using h.ans i

theorem sysInv_run {b : ℕ → Basis} {obj n : ℕ → ℕ} {reqs : ℕ → List ℕ} (sched : List ℕ) {s : Sys} (h : SysInv b obj n reqs s) : SysInv b obj n reqs (s.run b obj sched) := by
  induction sched generalizing s with
  | nil => exact h
  | cons j l ih => exact ih (sysInv_step h j)

theorem memInv_of_holds {b : Basis} {v : List Mat} {n : ℕ} (h : Holds b v n) : MemInv b n v := by
  unfold Holds at h
  subst h
  exact ⟨by simp, fun k hk => ⟨k, by simp, min_le_left _ _, le_rfl⟩⟩

theorem sysInv_start {b : ℕ → Basis} {obj n : ℕ → ℕ} {reqs : ℕ → List ℕ} {s : Sys} (hm : ∀ o, Holds (b o) (s.mem o) (n o)) (hs : ∀ j, Starts (s.thread j) (reqs j)) :
    SysInv b obj n reqs s :=
  ⟨fun o => memInv_of_holds (hm o), fun j => by rw [(hs j).2.1]; trivial, fun j => answers_start _ (hs j)⟩

/-! ## turns -/

/-- The matrix is the one asked for. -/
def Exact (b : Basis) (d : ℕ) (r : Res Mat) : Prop := r = .ok (b.derivMatrixImpl d)

/-- Within a call of which the accesses are not interleaved with others. -/
def TurnInv (b : Basis) (v : List Mat) : At → Prop
  | .idle => ∃ m, Holds b v m
  | .fill d c => Holds b v c ∧ c ≤ d
  | .ret d => ∃ m, Holds b v m ∧ d < m

theorem TurnInv.holds {b : Basis} {v : List Mat} {a : At} (h : TurnInv b v a) : ∃ m, Holds b v m := by
  cases a with
  | idle => exact h
  | fill d c => exact ⟨c, h.1⟩
  | ret d => obtain ⟨m, h, -⟩ := h; exact ⟨m, h⟩

theorem Holds.length {b : Basis} {v : List Mat} {m : ℕ} (h : Holds b v m) : v.length = m := by rw [h]; simp

theorem turn_step {b : Basis} {th : Thread} {v : List Mat} (h : TurnInv b v th.at_) : TurnInv b (th.step b v).1 (th.step b v).2.at_ := by
  obtain ⟨todo, at_, out⟩ := th
  cases at_ with
  | idle =>
    cases todo with
    | nil => exact h
    | cons d ds =>
      obtain ⟨m, hm⟩ := h
      have hl := Holds.length hm
      simp only [Thread.step, hl]
      by_cases hv : m ≤ d
      · rcases enter_cases d m with ⟨-, e⟩ | ⟨h, e⟩
        · simp only [hv, if_true, e]; exact ⟨hm, hv⟩
        · omega
      · simp only [hv, if_false]; exact ⟨m, hm, not_le.1 hv⟩
  | fill d c =>
    obtain ⟨h1, h2⟩ := h
    have h3 : Holds b (v ++ [b.derivMatrixImpl c]) (c + 1) := by
      unfold Holds at h1 ⊢; rw [h1, List.range_succ]; simp
    simp only [Thread.step]
    rcases enter_cases d (c + 1) with ⟨h, e⟩ | ⟨h, e⟩
    · rw [e]; exact ⟨h3, by omega⟩
    · rw [e]; exact ⟨c + 1, h3, by omega⟩
  | ret d => obtain ⟨m, hm, -⟩ := h; exact ⟨m, hm⟩

theorem run_turns {b : ℕ → Basis} {obj : ℕ → ℕ} {reqs : ℕ → List ℕ} (sched : List ℕ) {s : Sys} (hx : Exclusive b obj s sched)
    (h : ∀ j, TurnInv (b (obj j)) (s.mem (obj j)) (s.thread j).at_) (ha : ∀ j, Answers (Exact (b (obj j))) (reqs j) (s.thread j)) :
    ∀ j, Answers (Exact (b (obj j))) (reqs j) ((s.run b obj sched).thread j) := by
  induction sched generalizing s with
  | nil => exact ha
  | cons j l ih =>
    refine ih hx.2 (fun i => ?_) (fun i => ?_)
    · by_cases hi : i = j
      · subst hi; simpa [Sys.step] using turn_step (h i)
      · by_cases ho : obj i = obj j
        · simp only [Sys.step, hi, ho, if_true, if_false, hx.1 i hi ho]
          exact (turn_step (h j)).holds
        · simpa [Sys.step, hi, ho] using h i
    · by_cases hi : i = j
      · subst hi
        simp only [Sys.step, if_true]
        refine answers_step (ha i) fun d hd => ?_
        have := h i
        rw [hd] at this
        obtain ⟨m, hm, hd⟩ := this
        exact ⟨_, by rw [hm]; simp [hd], rfl⟩
      · simpa [Sys.step, hi] using ha i

/-! ## progress -/

/-- Bound on the number of accesses of one call. -/
def callWork (d : ℕ) : ℕ := d + 3

/-- Bound on the number of accesses still to make. -/
def Thread.work (th : Thread) : ℕ :=
  (match th.at_ with
    | .idle => 0
    | .fill d c => (d + 1 - c) + 1
    | .ret _ => 1) + (th.todo.map callWork).sum

theorem work_step (b : Basis) {n : ℕ} {th : Thread} {v : List Mat} (ha : AtInv n v th.at_) : (th.step b v).2.work ≤ th.work - 1 := by
  obtain ⟨todo, at_, out⟩ := th
  cases at_ with
  | idle =>
    cases todo with
    | nil => simp [Thread.step, Thread.work]
    | cons d ds =>
      simp only [Thread.step, Thread.work, List.map_cons, List.sum_cons, callWork]
      by_cases hv : v.length ≤ d
      · rcases enter_cases d v.length with ⟨-, e⟩ | ⟨h, e⟩ <;> simp only [hv, if_true, e] <;> omega
      · simp only [hv, if_false]; omega
  | fill d c =>
    obtain ⟨-, -, h3⟩ := ha
    simp only [Thread.step, Thread.work]
    rcases enter_cases d (c + 1) with ⟨h, e⟩ | ⟨h, e⟩ <;> rw [e] <;> simp only <;> omega
  | ret d => simp only [Thread.step, Thread.work]; omega

theorem work_run {b : ℕ → Basis} {obj n : ℕ → ℕ} {reqs : ℕ → List ℕ} (sched : List ℕ) {s : Sys} (h : SysInv b obj n reqs s) (j : ℕ) :
    ((s.run b obj sched).thread j).work ≤ (s.thread j).work - sched.count j := by
  induction sched generalizing s with
  | nil => simp [Sys.run]
  | cons i l ih =>
    have h1 := ih (sysInv_step h i)
    rw [show s.run b obj (i :: l) = (s.step b obj i).run b obj l from rfl]
    refine h1.trans ?_
    by_cases hij : i = j
    · subst hij
      have := work_step (b (obj i)) (h.at_ i)
      simp only [Sys.step, if_true, List.count_cons_self]
      omega
    · have : (s.step b obj i).thread j = s.thread j := by simp [Sys.step, Ne.symm hij]
      rw [this, List.count_cons_of_ne hij]

theorem finished_iff (th : Thread) : Finished th ↔ th.work = 0 := by
  obtain ⟨todo, at_, out⟩ := th
  cases at_ <;> cases todo <;> simp [Finished, Thread.work, callWork]

theorem run_append (b : ℕ → Basis) (obj : ℕ → ℕ) (s : Sys) (l l' : List ℕ) : s.run b obj (l ++ l') = (s.run b obj l).run b obj l' := List.foldl_append

theorem step_self (b : ℕ → Basis) (obj : ℕ → ℕ) (s : Sys) (i : ℕ) {th : Thread} {v : List Mat} (h : s.thread i = th) (hv : s.mem (obj i) = v) :
    (s.step b obj i).thread i = (th.step (b (obj i)) v).2 ∧ (s.step b obj i).mem (obj i) = (th.step (b (obj i)) v).1 := by
  subst h hv; simp [Sys.step]

theorem step_other (b : ℕ → Basis) (obj : ℕ → ℕ) (s : Sys) {i j : ℕ} (h : j ≠ i) : (s.step b obj i).thread j = s.thread j := by
  simp [Sys.step, h]

/-- A thread that asks again and again for an order that the object holds. -/
theorem run_reads (b : ℕ → Basis) (obj : ℕ → ℕ) (i d : ℕ) (m : Mat) (N : ℕ) (s : Sys) (out : List (Res Mat)) (hi : s.thread i = ⟨List.replicate N d, .idle, out⟩)
    (hm : (s.mem (obj i))[d]? = some m) :
    (s.run b obj (List.replicate (2 * N) i)).thread i = ⟨[], .idle, out ++ List.replicate N (.ok m)⟩ ∧
    (s.run b obj (List.replicate (2 * N) i)).mem (obj i) = s.mem (obj i) ∧ ∀ j ≠ i, (s.run b obj (List.replicate (2 * N) i)).thread j = s.thread j := by
  induction N generalizing s out with
  | zero => simp [Sys.run, hi]
  | succ N ih =>
    have hlt : d < (s.mem (obj i)).length := (List.getElem?_eq_some_iff.1 hm).1
    obtain ⟨a1, a2⟩ := step_self b obj s i hi rfl
    simp only [Thread.step, List.replicate_succ, not_le.2 hlt, if_false] at a1 a2
    obtain ⟨c1, c2⟩ := step_self b obj _ i a1 a2
    simp only [Thread.step, hm] at c1 c2
    obtain ⟨e1, e2, e3⟩ := ih ((s.step b obj i).step b obj i) (out ++ [.ok m]) c1 (by rw [c2]; exact hm)
    rw [show 2 * (N + 1) = 2 * N + 1 + 1 from by ring, List.replicate_succ, List.replicate_succ]
    refine ⟨?_, e2.trans c2, fun j hj => ?_⟩
    · rw [show s.run b obj (i :: i :: List.replicate (2 * N) i) = ((s.step b obj i).step b obj i).run b obj (List.replicate (2 * N) i) from rfl, e1]
      simp [List.replicate_succ]
    · exact (e3 j hj).trans ((step_other b obj _ hj).trans (step_other b obj _ hj))

/-! ## the derivative of a spline -/

theorem forLoop_congr {σ : Type} {a b : ℕ} {f g : ℕ → σ → σ} (s : σ) (h : ∀ i st, a ≤ i → i < b → f i st = g i st) : forLoop a b f s = forLoop a b g s := by
  rcases Nat.le_total a b with hab | hab
  · induction b, hab using Nat.le_induction with
    | base => rw [forLoop_of_le le_rfl, forLoop_of_le le_rfl]
    | succ b hb ih =>
      rw [forLoop_succ hb, forLoop_succ hb, ih fun i st h1 h2 => h i st h1 (by omega)]
      exact h b _ hb (by omega)
  · rw [forLoop_of_le hab, forLoop_of_le hab]

theorem coeffsWith_eq (g : GSpline) (deg : ℕ) (ms : ℕ → Mat) (h : ∀ k < g.nIntervals * g.codim, ms k = g.basis.derivMatrixImpl deg) :
    coeffsWith g deg ms = g.derivCoeffs deg := by
  unfold coeffsWith GSpline.derivCoeffs
  refine forLoop_congr _ fun i st _ hi => forLoop_congr _ fun c st' _ hc => ?_
  have : i * g.codim + c < g.nIntervals * g.codim := by
    calc i * g.codim + c < i * g.codim + g.codim := by omega
      _ = (i + 1) * g.codim := by ring
      _ ≤ g.nIntervals * g.codim := Nat.mul_le_mul_right _ hi
  rw [h _ this]
  rfl

theorem derivWith_eq (g : GSpline) (deg : ℕ) (ms : ℕ → Mat) (h : ∀ k < (derivRequests g deg).length, ms k = g.basis.derivMatrixImpl deg) :
    derivWith g deg ms = g.deriv deg := by
  unfold derivWith GSpline.deriv
  rcases Nat.eq_zero_or_pos deg with hd | hd
  · simp [hd]
  · have := coeffsWith_eq g deg ms (by simpa [derivRequests, hd.ne'] using h)
    simp only [this, Nat.succ_le_iff]

end GSplines.Derivers
