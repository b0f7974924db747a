import Verif.Spec.Views
import Verif.Proofs.Failure
import Verif.Proofs.GSpline
import Verif.Proofs.InterpState
import Verif.Proofs.InterpUnique

/-!
# Lemmas about vectors returned by reference
-/

namespace GSplines.Views

open GSplines Spec

/-! ## The product -/

theorem forLoop_snoc {σ : Type} (n : ℕ) (body : ℕ → σ → σ) (s : σ) : forLoop 0 (n + 1) body s = body n (forLoop 0 n body s) := by
  unfold forLoop
  rw [Nat.sub_zero, Nat.sub_zero, List.range'_concat, List.foldl_append]
  simp

/-- With a right hand side that does not change the loop computes the product. -/
theorem product_own (size : ℕ) (d : Mat) (y : Vec) : product size d (fun _ => y) = d.mulVec size y := by
  have key : ∀ m, forLoop 0 m (fun j (r : Vec) => let x := (fun _ => y : Vec → Vec) r j; fun i => r i + d i j * x) (fun _ => 0) =
      fun i => ∑ k ∈ Finset.range m, d i k * y k := by
    intro m
    induction m with
    | zero => rfl
    | succ m ih =>
      rw [forLoop_snoc, ih]
      funext i
      rw [Finset.sum_range_succ]
  exact key size

/-- With the result as right hand side the loop computes zero. -/
theorem product_alias (size : ℕ) (d : Mat) : product size d (fun r => r) = fun _ => 0 := by
  have key : ∀ m, forLoop 0 m (fun j (r : Vec) => let x := (fun r => r : Vec → Vec) r j; fun i => r i + d i j * x) (fun _ => 0) = fun _ => 0 := by
    intro m
    induction m with
    | zero => rfl
    | succ m ih =>
      rw [forLoop_snoc, ih]
      funext i
      ring
  exact key size

theorem mulVec_congr {size : ℕ} {d : Mat} {x y : Vec} (h : ∀ k < size, x k = y k) : d.mulVec size x = d.mulVec size y := by
  funext i
  exact Finset.sum_congr rfl fun k hk => by rw [h k (Finset.mem_range.1 hk)]

/-! ## One call -/

theorem read_length (s : Interp) (v : View) : (v.read s).length = v.len s := by
  cases v <;> simp [View.read, View.len]

theorem range_map_vecOf (l : List ℝ) : (List.range l.length).map (vecOf l) = l := by
  apply List.ext_getElem (by simp)
  intro i h1 h2
  simp [vecOf, h2]

/-- The numbers in the argument. -/
def Src.val (s : Interp) : Src → List ℝ
  | .own y => y
  | .view v => v.read s

/-- The argument is not the vector that the call writes. -/
def Src.Apart : Src → Prop
  | .view .coef => False
  | _ => True

theorem coeff_apart (lu : LU) (a : Src) (ha : a.Apart) (tau : List ℝ) (idx : ℕ) (s : Interp) :
    coeff lu a tau idx s = ((Failure.coeff lu (a.val s) tau idx s).1, (Failure.coeff lu (a.val s) tau idx s).2.map fun _ => .coef) := by
  have hlen : a.len s = (a.val s).length := by
    cases a with
    | own y => rfl
    | view v => exact (read_length s v).symm
  unfold coeff Failure.coeff
  by_cases h1 : ∃ x ∈ tau, x < 1 / 10 ^ 6
  · rw [if_pos h1, if_pos h1]; rfl
  rw [if_neg h1, if_neg h1]
  by_cases h2 : tau.length ≠ s.n ∨ s.n ≤ idx
  · rw [if_pos h2, if_pos h2]; rfl
  rw [if_neg h2, if_neg h2]
  cases hd : Interp.fillDer s.basis s.codim s.n tau idx (s.ders idx) with
  | error e => rfl
  | ok d =>
    dsimp only
    have hlen' : a.len { s with ders := setAt s.ders idx d } = (a.val s).length := by
      rw [← hlen]
      cases a with
      | own y => rfl
      | view v => cases v <;> rfl
    have hsz : Interp.size { s with ders := setAt s.ders idx d } = s.size := rfl
    rw [hlen', hsz]
    by_cases h3 : (a.val s).length ≠ s.size
    · rw [if_pos h3, if_pos h3]; rfl
    rw [if_neg h3, if_neg h3]
    have hp : product s.size d (fun r => a.now { s with ders := setAt s.ders idx d } r) = d.mulVec s.size (vecOf (a.val s)) := by
      cases a with
      | own y => exact product_own _ _ _
      | view v =>
        cases v with
        | coef => exact absurd ha id
        | sol len =>
          refine (product_own s.size d (vecOf s.sol)).trans (mulVec_congr fun k hk => ?_)
          have : len = s.size := by rw [← not_not.1 h3]; exact hlen
          exact (vecOf_map_range (by omega)).symm
    rw [hp]
    cases hm : Interp.fillMatrix s.basis s.codim s.n tau s.mat with
    | error e => rfl
    | ok m =>
      dsimp only
      by_cases h4 : lu.succeeds s.size m = true
      · rw [if_pos h4, if_pos h4]; rfl
      · rw [if_neg h4, if_neg h4]; rfl

/-- A call of `get_coeff_derivative_wrt_tau` writes neither the solution nor the sizes. -/
theorem coeff_frame (lu : LU) (a : Src) (tau : List ℝ) (idx : ℕ) (s : Interp) :
    (coeff lu a tau idx s).1.sol = s.sol ∧ (coeff lu a tau idx s).1.size = s.size := by
  unfold coeff
  split
  · exact ⟨rfl, rfl⟩
  split
  · exact ⟨rfl, rfl⟩
  split
  · exact ⟨rfl, rfl⟩
  dsimp only
  split
  · exact ⟨rfl, rfl⟩
  split
  · exact ⟨rfl, rfl⟩
  split <;> exact ⟨rfl, rfl⟩

/-- `solve_interpolation` does not write the vector of the derivative, nor the sizes. -/
theorem solve_frame (lu : LU) (tau : List ℝ) (w : Pts) (s : Interp) :
    (Failure.solve lu tau w s).1.coef = s.coef ∧ (Failure.solve lu tau w s).1.size = s.size := by
  unfold Failure.solve
  split
  · exact ⟨rfl, rfl⟩
  split
  · exact ⟨rfl, rfl⟩
  split
  · exact ⟨rfl, rfl⟩
  dsimp only
  split <;> exact ⟨rfl, rfl⟩

theorem interpolate_fst (lu : LU) (tau : List ℝ) (w : Pts) (s : Interp) :
    (Failure.interpolate lu tau w s).1 = (Failure.solve lu tau w s).1 := by
  unfold Failure.interpolate
  split
  · rename_i h; rw [h]
  · rename_i h; rw [h]

/-- What `solve_interpolation` returns is the content of its vector. -/
theorem solve_sol (lu : LU) (tau : List ℝ) (w : Pts) (s : Interp) (x : List ℝ) (h : (Failure.solve lu tau w s).2 = .ok x) :
    (Failure.solve lu tau w s).1.sol = x := by
  unfold Failure.solve at h ⊢
  split at h
  · cases h
  rename_i h1
  rw [if_neg h1]
  split at h
  · cases h
  split at h
  · cases h
  dsimp only at h ⊢
  split at h
  · rename_i h2
    rw [if_pos h2]; cases h; rfl
  · rename_i h2
    rw [if_neg h2]; cases h; rfl

/-- What `get_coeff_derivative_wrt_tau` returns is the content of its vector. -/
theorem coeff_coef (lu : LU) (y tau : List ℝ) (idx : ℕ) (s : Interp) (x : Vec) (h : (Failure.coeff lu y tau idx s).2 = .ok x) :
    (Failure.coeff lu y tau idx s).1.coef = x := by
  unfold Failure.coeff at h ⊢
  split at h
  · cases h
  rename_i h1
  rw [if_neg h1]
  split at h
  · rename_i h2
    rw [if_pos h2]; cases h; rfl
  rename_i h2
  rw [if_neg h2]
  split at h
  · cases h
  rename_i d hd
  dsimp only at h ⊢
  split at h
  · cases h
  rename_i h3
  rw [if_neg h3]
  split at h
  · cases h
  rename_i m hm
  split at h
  · rename_i h4
    rw [if_pos h4]; cases h; rfl
  · cases h

theorem read_sol_of {s s' : Interp} (h : s'.sol = s.sol) (len : ℕ) : (View.sol len).read s' = (View.sol len).read s := by
  unfold View.read; rw [h]

theorem read_coef_of {s s' : Interp} (h : s'.coef = s.coef) (h' : s'.size = s.size) : View.coef.read s' = View.coef.read s := by
  unfold View.read; rw [h, h']

/-! ## Programs -/

theorem run_snoc (lu : LU) (s : Interp) (l : List Call) (c : Call) : run lu s (l ++ [c]) = c.run lu (run lu s l) := by
  unfold run; rw [List.foldl_append]; rfl

theorem crun_snoc (lu : LU) (s : Interp) (l : List Call) (c : Call) : crun lu s (l ++ [c]) = (crun lu s l).call lu c := by
  unfold crun; rw [List.foldl_append]; rfl

theorem run_held (lu : LU) (p : Prog) (c : Call) : ∃ r, (c.run lu p).held = p.held ++ [r] := by
  cases c with
  | solve tau w => exact ⟨_, rfl⟩
  | interpolate tau w => exact ⟨_, rfl⟩
  | coeff a tau idx =>
    unfold Call.run
    dsimp only
    split
    · exact ⟨_, rfl⟩
    · exact ⟨_, rfl⟩

theorem call_held (lu : LU) (p : CProg) (c : Call) : ∃ r, (p.call lu c).held = p.held ++ [r] := by
  cases c with
  | solve tau w => exact ⟨_, rfl⟩
  | interpolate tau w => exact ⟨_, rfl⟩
  | coeff a tau idx =>
    unfold CProg.call
    dsimp only
    split
    · exact ⟨_, rfl⟩
    · exact ⟨_, rfl⟩

theorem run_length (lu : LU) (s : Interp) (l : List Call) : (run lu s l).held.length = l.length := by
  induction l using List.reverseRecOn with
  | nil => rfl
  | append_singleton l c ih =>
    obtain ⟨r, hr⟩ := run_held lu (run lu s l) c
    rw [run_snoc, hr]; simp [ih]

theorem crun_length (lu : LU) (s : Interp) (l : List Call) : (crun lu s l).held.length = l.length := by
  induction l using List.reverseRecOn with
  | nil => rfl
  | append_singleton l c ih =>
    obtain ⟨r, hr⟩ := call_held lu (crun lu s l) c
    rw [crun_snoc, hr]; simp [ih]

/-- The references that the calls return. -/
theorem held_kind (lu : LU) (s : Interp) (l : List Call) (k : ℕ) (v : View) (h : (run lu s l).held[k]? = some (some v)) :
    (∃ tau w len, l[k]? = some (.solve tau w) ∧ v = .sol len) ∨ (∃ a tau idx, l[k]? = some (.coeff a tau idx) ∧ v = .coef) := by
  induction l using List.reverseRecOn with
  | nil => simp [run] at h
  | append_singleton l c ih =>
    have hl := run_length lu s l
    obtain ⟨r, hr⟩ := run_held lu (run lu s l) c
    rw [run_snoc] at h
    rcases Nat.lt_trichotomy k l.length with hk | hk | hk
    · rw [hr, List.getElem?_append_left (by omega)] at h
      rw [List.getElem?_append_left hk]
      exact ih h
    · subst hk
      have e : (l ++ [c])[l.length]? = some c := by simp
      rw [e]
      cases c with
      | solve tau w =>
        have h' : ((run lu s l).held ++ [(solve lu tau w (run lu s l).obj).2.toOption])[l.length]? = some (some v) := h
        rw [← hl] at h'
        simp only [List.getElem?_concat_length, Option.some.injEq] at h'
        left
        refine ⟨tau, w, ((solve lu tau w (run lu s l).obj).1.sol.length), rfl, ?_⟩
        unfold solve at h'
        dsimp only at h'
        cases hs : (Failure.solve lu tau w (run lu s l).obj).2 with
        | error e => rw [hs] at h'; cases h'
        | ok x => rw [hs] at h'; cases h'; rfl
      | interpolate tau w =>
        have h' : ((run lu s l).held ++ [none])[l.length]? = some (some v) := h
        rw [← hl] at h'
        simp at h'
      | coeff a tau idx =>
        right
        refine ⟨a, tau, idx, rfl, ?_⟩
        unfold Call.run at h
        dsimp only at h
        split at h
        · rw [← hl] at h; simp at h
        · rename_i x hx
          rw [← hl] at h
          simp only [List.getElem?_concat_length, Option.some.injEq] at h
          cases v with
          | coef => rfl
          | sol len =>
            exfalso
            unfold coeff at h
            split at h
            · cases h
            split at h
            · cases h
            split at h
            · cases h
            dsimp only at h
            split at h
            · cases h
            split at h
            · cases h
            split at h
            · cases h
            · cases h
    · rw [hr, List.getElem?_eq_none (by simp; omega)] at h
      cases h

theorem lastSolve_snoc {l : List Call} {c : Call} {k : ℕ} (h : LastSolve (l ++ [c]) k) (hk : k < l.length) : LastSolve l k ∧ ¬ Solving c := by
  obtain ⟨⟨tau, w, h1⟩, h2⟩ := h
  rw [List.getElem?_append_left hk] at h1
  refine ⟨⟨⟨tau, w, h1⟩, fun j d hj hd => h2 j d hj ?_⟩, h2 l.length c hk (by simp)⟩
  rw [List.getElem?_append_left (List.getElem?_eq_some_iff.1 hd).1]
  exact hd

theorem lastCoeff_snoc {l : List Call} {c : Call} {k : ℕ} (h : LastCoeff (l ++ [c]) k) (hk : k < l.length) : LastCoeff l k ∧ Solving c := by
  obtain ⟨⟨a, tau, idx, h1⟩, h2⟩ := h
  rw [List.getElem?_append_left hk] at h1
  refine ⟨⟨⟨a, tau, idx, h1⟩, fun j d hj hd => h2 j d hj ?_⟩, h2 l.length c hk (by simp)⟩
  rw [List.getElem?_append_left (List.getElem?_eq_some_iff.1 hd).1]
  exact hd

theorem passes_snoc {l : List Call} {c : Call} (h : PassesCurrent (l ++ [c])) :
    PassesCurrent l ∧ ∀ k tau idx, c = .coeff (.held k) tau idx → LastSolve l k := by
  refine ⟨fun j k tau idx hj => ?_, fun k tau idx hc => ?_⟩
  · have hjl := (List.getElem?_eq_some_iff.1 hj).1
    have := h j k tau idx (by rw [List.getElem?_append_left hjl]; exact hj)
    rwa [List.take_append_of_le_length hjl.le] at this
  · have := h l.length k tau idx (by simp [hc])
    rwa [List.take_append_of_le_length le_rfl, List.take_length] at this

theorem seen_lt {lu : LU} {s : Interp} {l : List Call} {c : Call} {k : ℕ} (hk : k < l.length) :
    (run lu s (l ++ [c])).held[k]? = (run lu s l).held[k]? := by
  obtain ⟨r, hr⟩ := run_held lu (run lu s l) c
  rw [run_snoc, hr, List.getElem?_append_left (by rw [run_length]; exact hk)]

theorem copy_lt {lu : LU} {s : Interp} {l : List Call} {c : Call} {k : ℕ} (hk : k < l.length) :
    (crun lu s (l ++ [c])).copy k = (crun lu s l).copy k := by
  obtain ⟨r, hr⟩ := call_held lu (crun lu s l) c
  unfold CProg.copy
  rw [crun_snoc, hr, List.getElem?_append_left (by rw [crun_length]; exact hk)]

/-- The call leaves the vectors of the other kind as they are. -/
theorem call_frame (lu : LU) (p : Prog) (c : Call) :
    (Solving c → (c.run lu p).obj.coef = p.obj.coef ∧ (c.run lu p).obj.size = p.obj.size) ∧
    (¬ Solving c → (c.run lu p).obj.sol = p.obj.sol ∧ (c.run lu p).obj.size = p.obj.size) := by
  cases c with
  | solve tau w => exact ⟨fun _ => solve_frame lu tau w p.obj, fun h => absurd trivial h⟩
  | interpolate tau w =>
    refine ⟨fun _ => ?_, fun h => absurd trivial h⟩
    unfold Call.run
    dsimp only
    rw [interpolate_fst]
    exact solve_frame lu tau w p.obj
  | coeff a tau idx =>
    refine ⟨fun h => absurd h id, fun _ => ?_⟩
    unfold Call.run
    dsimp only
    split
    · exact ⟨rfl, rfl⟩
    · exact coeff_frame lu _ tau idx p.obj

theorem run_refines (lu : LU) (s : Interp) (l : List Call) (hl : PassesCurrent l) :
    (run lu s l).obj = (crun lu s l).obj ∧
    ∀ k, LastSolve l k ∨ LastCoeff l k → (run lu s l).seen k = (crun lu s l).copy k := by
  induction l using List.reverseRecOn with
  | nil =>
    refine ⟨rfl, fun k hk => ?_⟩
    rcases hk with ⟨⟨_, _, h⟩, -⟩ | ⟨⟨_, _, _, h⟩, -⟩ <;> simp at h
  | append_singleton l c ih =>
    obtain ⟨hp, hc⟩ := passes_snoc hl
    obtain ⟨e, H⟩ := ih hp
    have L := run_length lu s l
    have L' := crun_length lu s l
    have hfr := call_frame lu (run lu s l) c
    -- the numbers of earlier calls
    have old : ∀ k, k < l.length → LastSolve (l ++ [c]) k ∨ LastCoeff (l ++ [c]) k → (run lu s (l ++ [c])).seen k = (crun lu s (l ++ [c])).copy k := by
      intro k hk hcur
      rw [copy_lt hk]
      unfold Prog.seen
      rw [seen_lt hk]
      rcases hcur with h | h
      · obtain ⟨h1, h2⟩ := lastSolve_snoc h hk
        rw [← H k (.inl h1)]
        unfold Prog.seen
        cases hv : (run lu s l).held[k]? with
        | none => rfl
        | some o =>
          cases o with
          | none => rfl
          | some v =>
            rcases held_kind lu s l k v hv with ⟨_, _, len, -, rfl⟩ | ⟨_, _, _, h3, -⟩
            · simp only [Option.join_some, Option.map_some]
              rw [run_snoc, read_sol_of (hfr.2 h2).1]
            · obtain ⟨⟨_, _, h4⟩, -⟩ := h1
              rw [h3] at h4; cases h4
      · obtain ⟨h1, h2⟩ := lastCoeff_snoc h hk
        rw [← H k (.inr h1)]
        unfold Prog.seen
        cases hv : (run lu s l).held[k]? with
        | none => rfl
        | some o =>
          cases o with
          | none => rfl
          | some v =>
            rcases held_kind lu s l k v hv with ⟨_, _, len, h3, rfl⟩ | ⟨_, _, _, -, rfl⟩
            · obtain ⟨⟨_, _, _, h4⟩, -⟩ := h1
              rw [h3] at h4; cases h4
            · simp only [Option.join_some, Option.map_some]
              rw [run_snoc, read_coef_of (hfr.1 h2).1 (hfr.1 h2).2]
    have hbig : ∀ k, l.length < k → ¬ (LastSolve (l ++ [c]) k ∨ LastCoeff (l ++ [c]) k) := by
      rintro k hk (⟨⟨_, _, h⟩, -⟩ | ⟨⟨_, _, _, h⟩, -⟩)
      · rw [List.getElem?_eq_none (by simp; omega)] at h; cases h
      · rw [List.getElem?_eq_none (by simp; omega)] at h; cases h
    -- the new call
    have new : (run lu s (l ++ [c])).obj = (crun lu s (l ++ [c])).obj ∧
        (run lu s (l ++ [c])).seen l.length = (crun lu s (l ++ [c])).copy l.length := by
      rw [run_snoc, crun_snoc]
      cases c with
      | solve tau w =>
        refine ⟨?_, ?_⟩
        · change (Failure.solve lu tau w (run lu s l).obj).1 = (Failure.solve lu tau w (crun lu s l).obj).1
          rw [e]
        · change ((((run lu s l).held ++ [(solve lu tau w (run lu s l).obj).2.toOption])[l.length]?).join.map (View.read (Failure.solve lu tau w (run lu s l).obj).1)) =
            (((crun lu s l).held ++ [(Failure.solve lu tau w (crun lu s l).obj).2.toOption])[l.length]?).join
          rw [← e]
          conv_lhs => rw [← L]
          conv_rhs => rw [← L']
          rw [List.getElem?_concat_length, List.getElem?_concat_length]
          unfold solve
          dsimp only
          cases hs : (Failure.solve lu tau w (run lu s l).obj).2 with
          | error e' => rfl
          | ok x =>
            have := solve_sol lu tau w _ x hs
            change some ((List.range _).map _) = some x
            rw [range_map_vecOf, this]
      | interpolate tau w =>
        refine ⟨?_, ?_⟩
        · change (Failure.interpolate lu tau w (run lu s l).obj).1 = (Failure.interpolate lu tau w (crun lu s l).obj).1
          rw [e]
        · change (((run lu s l).held ++ [none])[l.length]?).join.map _ = (((crun lu s l).held ++ [none])[l.length]?).join
          conv_lhs => rw [← L]
          conv_rhs => rw [← L']
          rw [List.getElem?_concat_length, List.getElem?_concat_length]
          rfl
      | coeff a tau idx =>
        -- the argument
        have harg : ((run lu s l).src a = none ∧ (crun lu s l).src a = none) ∨
            ∃ x : Src, x.Apart ∧ (run lu s l).src a = some x ∧ (crun lu s l).src a = some (x.val (run lu s l).obj) := by
          cases a with
          | own y => exact .inr ⟨.own y, trivial, rfl, rfl⟩
          | held k =>
            have hk := hc k tau idx rfl
            have hv := H k (.inl hk)
            unfold Prog.seen CProg.copy at hv
            unfold Prog.src CProg.src
            dsimp only
            rw [← hv]
            cases hh : (run lu s l).held[k]? with
            | none => exact .inl ⟨rfl, rfl⟩
            | some o =>
              cases o with
              | none => exact .inl ⟨rfl, rfl⟩
              | some v =>
                rcases held_kind lu s l k v hh with ⟨_, _, len, -, rfl⟩ | ⟨_, _, _, h3, -⟩
                · exact .inr ⟨.view (.sol len), trivial, rfl, rfl⟩
                · obtain ⟨⟨_, _, h4⟩, -⟩ := hk
                  rw [h3] at h4; cases h4
        unfold Call.run CProg.call
        dsimp only
        rcases harg with ⟨h1, h2⟩ | ⟨x, hx, h1, h2⟩
        · rw [h1, h2]
          refine ⟨e, ?_⟩
          change (((run lu s l).held ++ [none])[l.length]?).join.map _ = (((crun lu s l).held ++ [none])[l.length]?).join
          conv_lhs => rw [← L]
          conv_rhs => rw [← L']
          rw [List.getElem?_concat_length, List.getElem?_concat_length]
          rfl
        · rw [h1, h2]
          dsimp only
          rw [coeff_apart lu x hx, ← e]
          refine ⟨rfl, ?_⟩
          unfold Prog.seen CProg.copy
          dsimp only
          conv_lhs => rw [← L]
          conv_rhs => rw [← L']
          rw [List.getElem?_concat_length, List.getElem?_concat_length]
          have hsz : (Failure.coeff lu (x.val (run lu s l).obj) tau idx (run lu s l).obj).1.size = (run lu s l).obj.size := by
            have := (coeff_frame lu x tau idx (run lu s l).obj).2
            rwa [coeff_apart lu x hx] at this
          cases hs : (Failure.coeff lu (x.val (run lu s l).obj) tau idx (run lu s l).obj).2 with
          | error e' => rfl
          | ok z =>
            have := coeff_coef lu _ tau idx _ z hs
            change some ((List.range _).map _) = some ((List.range _).map _)
            rw [this, hsz]
    refine ⟨new.1, fun k hk => ?_⟩
    rcases Nat.lt_trichotomy k l.length with h | h | h
    · exact old k h hk
    · subst h; exact new.2
    · exact absurd hk (hbig k h)

/-! ## Calls with good arguments -/

open Interp Finset

/-- A call of `get_coeff_derivative_wrt_tau` with good arguments. -/
theorem coeff_valid {lu : LU} (hlu : LUContract lu) {codim n : ℕ} {b : Basis} {h : ℕ} (U : Usable b h) (hi : Independent b) {s : Interp} (hs : Reach lu codim n b s)
    {tau : List ℝ} (hlen : tau.length = n) (ht : ∀ t ∈ tau, 1 / 10 ^ 6 ≤ t) {idx : ℕ} (hidx : idx < n) (a : Src) (ha : a.len s = s.size) :
    ∃ m D, System b h n codim (vecOf tau) m ∧ Spec.Invertible s.size m ∧ lu.succeeds s.size m = true ∧
      (∀ x : Cond n codim h, D (row n codim h x) = overI idx (bufsT b (vecOf tau)) x fun _ => 0) ∧
      (Views.coeff lu a tau idx s).2 = .ok .coef ∧
      (Views.coeff lu a tau idx s).1.coef = fun i => - lu.solve s.size m (product s.size D fun r => a.now s r) i := by
  have hn : 0 < n := by omega
  obtain ⟨I, rfl, rfl, rfl⟩ := reach_inv U hn hs
  have hpos : ∀ t ∈ tau, 0 < t := fun t h1 => lt_of_lt_of_le (by norm_num) (ht t h1)
  have hposv : ∀ i < s.n, 0 < vecOf tau i := fun i hi' => vecOf_pos hpos (by omega)
  obtain ⟨m, hm, S⟩ := fillMatrix_system U hn hlen I.mat
  have hinv : Spec.Invertible s.size m := system_invertible U hi hn hposv S
  have hsucc := hlu.succeeds _ _ hinv
  have hd := fillDer_ok (c := s.codim) U hidx hlen (hposv idx hidx).ne' (s.ders idx)
  set D := derP s.basis.dim s.codim s.n idx (bufsT s.basis (vecOf tau)) (s.ders idx) with hD
  have hDrow : ∀ x : Cond s.n s.codim h, D (row s.n s.codim h x) = overI idx (bufsT s.basis (vecOf tau)) x fun _ => 0 := by
    intro x
    rw [hD, U.dim]
    exact derP_rows _ hidx (I.ders idx hidx) x
  refine ⟨m, D, S, hinv, hsucc, hDrow, ?_⟩
  have ha' : a.len { s with ders := setAt s.ders idx D } = s.size := by
    rw [← ha]
    cases a with
    | own y => rfl
    | view v => cases v <;> rfl
  have hnow : (fun r => a.now { s with ders := setAt s.ders idx D } r) = fun r => a.now s r := by
    funext r
    cases a with
    | own y => rfl
    | view v => cases v <;> rfl
  have hsz : Interp.size { s with ders := setAt s.ders idx D } = s.size := rfl
  unfold Views.coeff
  rw [if_neg (by push Not; exact ht), if_neg (by omega), hd]
  dsimp only
  rw [ha', hsz, hnow, if_neg (by simp), hm]
  dsimp only
  rw [if_pos hsucc]
  exact ⟨rfl, rfl⟩

/-- The vector of a previous derivative as argument: the result is zero. -/
theorem coeff_alias {lu : LU} (hlu : LUContract lu) {codim n : ℕ} {b : Basis} {h : ℕ} (U : Usable b h) (hi : Independent b) {s : Interp} (hs : Reach lu codim n b s)
    {tau : List ℝ} (hlen : tau.length = n) (ht : ∀ t ∈ tau, 1 / 10 ^ 6 ≤ t) {idx : ℕ} (hidx : idx < n) :
    (Views.coeff lu (.view .coef) tau idx s).2 = .ok .coef ∧ View.coef.read (Views.coeff lu (.view .coef) tau idx s).1 = List.replicate s.size 0 := by
  obtain ⟨m, D, S, hinv, hsucc, hD, h1, h2⟩ := coeff_valid hlu U hi hs hlen ht hidx (.view .coef) rfl
  refine ⟨h1, ?_⟩
  unfold View.read
  dsimp only
  rw [h2, (coeff_frame lu _ tau idx s).2]
  have hz : product s.size D (fun r => Src.now s r (.view .coef)) = fun _ => 0 := product_alias s.size D
  rw [hz]
  have h0 : Solves s.size m (fun _ => 0) (fun _ => 0) := fun r _ => by simp
  have hu := Invertible.unique hinv (hlu.solves _ _ _ hsucc) h0
  apply List.ext_getElem (by simp)
  intro i h3 h4
  have : i < s.size := by simpa using h3
  simp [hu i this]

/-- For the Legendre basis the derivative of the row of the first velocity with respect to the first length. -/
theorem restL_row {d n codim h : ℕ} (U : Usable (.legendre d) h) (hn : 0 < n) (h1 : 1 ≤ h) {tau : Vec} (ht : ∀ i < n, tau i ≠ 0) {D : Mat}
    (hD : ∀ x : Cond n codim h, D (row n codim h x) = overI 0 (bufsT (.legendre d) tau) x fun _ => 0) (comp : Fin codim) (y : Vec) :
    ∑ k ∈ range (d * codim * n), D (row n codim h (.restL comp ⟨0, h1⟩)) k * y k =
      - (1 / tau 0) * (Cond.restL comp ⟨0, h1⟩ : Cond n codim h).quantity (.legendre d) tau y := by
  have hdim : d = 2 * h + 2 := U.dim
  subst hdim
  have hrow := row_quantity U hn ht y (.restL comp ⟨0, h1⟩)
  rw [← hrow, Finset.mul_sum, hD]
  refine Finset.sum_congr rfl fun k hk => ?_
  set d := 2 * h + 2 with hd2
  have hE : ∀ k, (Basis.legendre d).evT (-1) (tau 0) 1 k = -(1 / tau 0) * (Basis.legendre d).ev (-1) (tau 0) 1 k := by
    intro k
    have hs := (Basis.tau_spec U.valid (-1) (tau 0) 1 (U.order (show 1 ≤ d - 2 by omega))).1 (tau 0)
    have hs' : Legendre.evalDerivOnWindow d (-1) (tau 0) 1 = .ok ((Basis.legendre d).ev (-1) (tau 0) 1) := hs
    have hT : (Basis.legendre d).evalDerivWrtTauOnWindow (-1) (tau 0) 1 =
        .ok (fun i => (Basis.legendre d).ev (-1) (tau 0) 1 i * (-(1 / 2) * ((1 : ℕ) : ℝ) * (2 / tau 0))) := by
      change Legendre.evalDerivWrtTauOnWindow d (-1) (tau 0) 1 = _
      unfold Legendre.evalDerivWrtTauOnWindow
      rw [hs']; rfl
    rw [Basis.evT_of hT]
    have := ht 0 hn
    push_cast
    field_simp
  unfold overI over
  dsimp only
  rw [if_pos rfl]
  unfold upd
  split_ifs with hc
  · unfold bufsT bufs
    dsimp only
    have : 0 < (Basis.legendre d).dim - 2 := by change 0 < d - 2; omega
    rw [if_pos this, if_pos this, hE]
    ring
  · ring

/-- For the Legendre basis: the derivative of the derivative with respect to the first length is not zero when the spline starts with a velocity. -/
theorem twice_ne_zero {lu : LU} (hlu : LUContract lu) {d codim n h : ℕ} (U : Usable (.legendre d) h) (h1 : 1 ≤ h) {s s' : Interp} (hs : Reach lu codim n (.legendre d) s)
    (hs' : Reach lu codim n (.legendre d) s') (hsz : s'.size = s.size)
    {tau : List ℝ} (hlen : tau.length = n) (ht : ∀ t ∈ tau, 1 / 10 ^ 6 ≤ t) (hn : 0 < n) (y y' : List ℝ) (hy : y.length = s.size) (hy' : y'.length = s.size)
    (hyy : ∀ k < s.size, vecOf y' k = (Views.coeff lu (.own y) tau 0 s).1.coef k) (comp : Fin codim)
    (hv : deriv (piece (.legendre d) codim (vecOf tau) (vecOf y) 0 comp) 0 ≠ 0) :
    ∃ k < s.size, (Views.coeff lu (.own y') tau 0 s').1.coef k ≠ 0 := by
  obtain ⟨m, D, S, hinv, hsucc, hD, -, e1⟩ := coeff_valid hlu U trivial hs hlen ht hn (.own y) hy
  obtain ⟨m', D', S', hinv', hsucc', hD', -, e2⟩ := coeff_valid hlu U trivial hs' hlen ht hn (.own y') (by rw [hsz]; exact hy')
  by_contra hno
  push Not at hno
  obtain ⟨-, b1, b2, b3⟩ := reach_inv U hn hs
  have hsize : s.size = d * codim * n := by unfold Interp.size; rw [b1, b2, b3]; rfl
  have hposv : ∀ i < n, vecOf tau i ≠ 0 := fun i hi' => (vecOf_pos (fun t h1 => lt_of_lt_of_le (by norm_num) (ht t h1)) (by omega)).ne'
  set q : Cond n codim h := .restL comp ⟨0, h1⟩ with hq
  have hr : row n codim h q < s.size := by
    rw [hsize, show d = 2 * h + 2 from U.dim]; exact row_lt hn q
  have p1 : product s.size D (fun r => Src.now s r (.own y)) = D.mulVec s.size (vecOf y) := product_own _ _ _
  have p2 : product s'.size D' (fun r => Src.now s' r (.own y')) = D'.mulVec s.size (vecOf y') := by rw [hsz]; exact product_own _ _ _
  rw [p1] at e1
  rw [p2, hsz] at e2
  -- the second derivative is zero, so the row of the velocity gives zero for the first derivative
  have z2 : D'.mulVec s.size (vecOf y') (row n codim h q) = 0 := by
    have := hlu.solves s.size m' (D'.mulVec s.size (vecOf y')) (by rw [← hsz]; exact hsucc') (row n codim h q) hr
    rw [← this]
    refine Finset.sum_eq_zero fun k hk => ?_
    have := hno k (mem_range.1 hk)
    rw [e2] at this
    have h0 : lu.solve s.size m' (D'.mulVec s.size (vecOf y')) k = 0 := by linarith
    rw [h0, mul_zero]
  have z2' : q.quantity (.legendre d) (vecOf tau) (vecOf y') = 0 := by
    have h3 : ∑ k ∈ range (d * codim * n), D' (row n codim h q) k * vecOf y' k = 0 := by rw [← hsize]; exact z2
    rw [hq, restL_row U hn h1 hposv hD' comp (vecOf y')] at h3
    have := hposv 0 hn
    rcases mul_eq_zero.1 h3 with h4 | h4
    · exact absurd h4 (by simp [this])
    · exact h4
  -- the row of the system says that it is the velocity of the spline over the length
  have z1 := hlu.solves s.size m (D.mulVec s.size (vecOf y)) hsucc (row n codim h q) hr
  have z1' : D.mulVec s.size (vecOf y) (row n codim h q) = 0 := by
    rw [← z1]
    have h5 := S.sum U hn hposv (vecOf y') q
    rw [z2'] at h5
    have h6 : ∑ k ∈ range s.size, m (row n codim h q) k * vecOf y' k = 0 := by rw [hsize]; exact h5
    have h7 : ∑ k ∈ range s.size, m (row n codim h q) k * vecOf y' k =
        - ∑ k ∈ range s.size, m (row n codim h q) k * lu.solve s.size m (D.mulVec s.size (vecOf y)) k := by
      rw [← Finset.sum_neg_distrib]
      refine Finset.sum_congr rfl fun k hk => ?_
      rw [hyy k (mem_range.1 hk), e1]
      ring
    linarith
  have h3 : ∑ k ∈ range (d * codim * n), D (row n codim h q) k * vecOf y k = 0 := by rw [← hsize]; exact z1'
  rw [hq, restL_row U hn h1 hposv hD comp (vecOf y)] at h3
  have := hposv 0 hn
  rcases mul_eq_zero.1 h3 with h4 | h4
  · exact absurd h4 (by simp [this])
  · apply hv
    have h8 : iteratedDeriv (0 + 1) (piece (.legendre d) codim (vecOf tau) (vecOf y) 0 comp) 0 = 0 := h4
    rw [zero_add, iteratedDeriv_one] at h8
    exact h8

end GSplines.Views
