import Verif.Spec.Refs
import Verif.Proofs.Refs
import Verif.Props.Basis

/-!
# Matrices returned by reference (C72)

The basis returns its derivative matrices, continuity matrices and derivative matrices of splines by reference. The reference shows the right matrix when the call returns. A reference to
a derivative matrix lives as long as no higher order is asked for; a reference to one of the other matrices lives as long as the object, but shows the matrix for the lengths of the last
call with the same sizes.
-/

namespace GSplines.Props

open GSplines Spec Refs

/-- **C72**, when the call returns: for every history of the object the reference shows the matrix that a call on a new object returns, or the call fails in the same way. -/
theorem C72_now (b : Basis) (grow : ℕ → ℕ) (hg : Grows grow) (hist : List Req) (q : Req) :
    ((call b grow (calls b grow (new grow) hist) q).2 >>= fun r => deref (call b grow (calls b grow (new grow) hist) q).1 r) = answer b q := by
  have hi := inv_calls b hg (inv_new b hg) hist
  generalize calls b grow (new grow) hist = o at hi
  cases q with
  | block d =>
    have h := fill_spec b hg hi.cap d
    exact deref_block (h.inv hi) (by rw [h.length]; omega)
  | cont n c k tau =>
    obtain ⟨-, h2⟩ := Basis.continuityMatrix_spec hi.cont n c k tau
    obtain ⟨-, hok⟩ := cont_frame b n c k tau o.cont
    change ((b.continuityMatrix n c k tau o.cont).2.map _ >>= fun r => _) = (b.contFresh n c k tau)
    cases hr : (b.continuityMatrix n c k tau o.cont).2 with
    | error e => rw [← h2, hr]; rfl
    | ok m =>
      obtain ⟨st, e⟩ := hok m hr
      rw [← h2, hr]
      change deref { (_ : Obj) with cont := _ } (.cont (n, c, k)) = _
      simp only [deref, e]
  | dmat n c k tau =>
    obtain ⟨-, h2⟩ := Basis.gsplineDerivativeMatrix_spec hi.dmat n c k tau
    obtain ⟨-, hok⟩ := dmat_frame b n c k tau o.dmat
    change ((b.gsplineDerivativeMatrix n c k tau o.dmat).2.map _ >>= fun r => _) = (b.derivFresh n c k tau)
    cases hr : (b.gsplineDerivativeMatrix n c k tau o.dmat).2 with
    | error e => rw [← h2, hr]; rfl
    | ok m =>
      obtain ⟨st, e⟩ := hok m hr
      rw [← h2, hr]
      change deref { (_ : Obj) with dmat := _ } (.dmat (n, c, k)) = _
      simp only [deref, e]

/-- The orders that have been asked for are held. -/
theorem order_lt (b : Basis) {grow : ℕ → ℕ} (hg : Grows grow) {o : Obj} (hi : Inv b o) (qs : List Req) :
    o.blocks.length ≤ (calls b grow o qs).blocks.length ∧ ∀ q ∈ qs, (∃ m, answer b q = .ok m) → derivOrder q < (calls b grow o qs).blocks.length := by
  induction qs generalizing o with
  | nil => exact ⟨le_rfl, by simp⟩
  | cons q qs ih =>
    obtain ⟨h1, h2⟩ := ih (inv_call b hg hi q)
    rw [calls_cons]
    have hle : o.blocks.length ≤ (call b grow o q).1.blocks.length := by
      obtain ⟨o', hf, -, -, e⟩ := call_filled b hg hi q
      rw [e]
      rcases hf with ⟨hf, -⟩ | rfl
      · rw [hf.length]; omega
      · exact le_rfl
    refine ⟨hle.trans h1, fun q' hq' hm => ?_⟩
    rcases List.mem_cons.1 hq' with rfl | hq'
    · refine lt_of_lt_of_le ?_ h1
      have hinv := inv_call b hg hi q'
      cases q' with
      | block d =>
        have h := fill_spec b hg hi.cap d
        change d < (fill b grow o d).blocks.length
        rw [h.length]; omega
      | cont n c k tau =>
        obtain ⟨m, hm⟩ := hm
        refine hinv.contLen n c k ?_
        obtain ⟨-, hok⟩ := cont_frame b n c k tau o.cont
        obtain ⟨st, e⟩ := hok m ((Basis.continuityMatrix_spec hi.cont n c k tau).2.trans hm)
        change ((b.continuityMatrix n c k tau o.cont).1 (n, c, k)).isSome = true
        rw [e]; rfl
      | dmat n c k tau =>
        obtain ⟨m, hm⟩ := hm
        refine hinv.dmatLen n c k ?_
        obtain ⟨-, hok⟩ := dmat_frame b n c k tau o.dmat
        obtain ⟨st, e⟩ := hok m ((Basis.gsplineDerivativeMatrix_spec hi.dmat n c k tau).2.trans hm)
        change ((b.gsplineDerivativeMatrix n c k tau o.dmat).1 (n, c, k)).isSome = true
        rw [e]; rfl
    · exact h2 q' hq' hm

/-- Calls for orders that are held leave the vector alone. -/
theorem alloc_same (b : Basis) {grow : ℕ → ℕ} (hg : Grows grow) {o : Obj} (hi : Inv b o) (qs : List Req) (h : ∀ q ∈ qs, derivOrder q < o.blocks.length) :
    (calls b grow o qs).alloc = o.alloc ∧ (calls b grow o qs).blocks = o.blocks := by
  induction qs generalizing o with
  | nil => exact ⟨rfl, rfl⟩
  | cons q qs ih =>
    have h1 : (call b grow o q).1.alloc = o.alloc ∧ (call b grow o q).1.blocks = o.blocks := by
      obtain ⟨o', hf, ea, -, eb⟩ := call_filled b hg hi q
      rw [ea, eb]
      rcases hf with ⟨hf, -⟩ | rfl
      · have := h q (by simp)
        refine ⟨hf.same.2 ?_, ?_⟩
        · rw [hf.length]; have := hi.cap; omega
        · rw [hf.blocks, Nat.sub_eq_zero_of_le (by omega)]; simp
      · exact ⟨rfl, rfl⟩
    obtain ⟨h2, h3⟩ := ih (inv_call b hg hi q) fun q' hq' => by rw [h1.2]; exact h q' (by simp [hq'])
    rw [calls_cons]
    exact ⟨h2.trans h1.1, h3.trans h1.2⟩

/-- **C72**, derivative matrices, the part that is true: the reference stays valid and shows the same matrix, through any later calls whose orders do not exceed those of
earlier calls that have succeeded. -/
theorem C72_block_stays_partial (b : Basis) (grow : ℕ → ℕ) (hg : Grows grow) (hist : List Req) (d : ℕ) (r : Ref) (o : Obj)
    (hr : call b grow (calls b grow (new grow) hist) (.block d) = (o, .ok r)) (later : List Req)
    (hl : ∀ q ∈ later, ∃ q' ∈ hist ++ [.block d], (∃ m, answer b q' = .ok m) ∧ derivOrder q ≤ derivOrder q') :
    deref (calls b grow o later) r = answer b (.block d) := by
  have ho : o = calls b grow (new grow) (hist ++ [.block d]) := by
    rw [calls_append]; exact (congrArg Prod.fst hr).symm
  have hr' : Ref.block o.alloc d = r := by
    have h1 : (call b grow (calls b grow (new grow) hist) (.block d)).1 = o := congrArg Prod.fst hr
    have h2 := congrArg Prod.snd hr
    rw [← h1]
    exact Except.ok.inj h2
  have hi := inv_calls b hg (inv_new b hg) (hist ++ [.block d])
  obtain ⟨-, h2⟩ := order_lt b hg (inv_new b hg) (hist ++ [.block d])
  rw [← ho] at hi h2
  obtain ⟨e1, e2⟩ := alloc_same b hg hi later fun q hq => by
    obtain ⟨q', hq', hm, hle⟩ := hl q hq
    exact lt_of_le_of_lt hle (h2 q' hq' hm)
  rw [← hr', ← e1]
  refine deref_block (inv_calls b hg hi later) ?_
  rw [e2]
  exact h2 (.block d) (by simp) ⟨_, rfl⟩

/-- The vector never returns to an allocation that it has given up. -/
theorem alloc_mono (b : Basis) {grow : ℕ → ℕ} (hg : Grows grow) {o : Obj} (hi : Inv b o) (qs : List Req) : o.alloc ≤ (calls b grow o qs).alloc := by
  induction qs generalizing o with
  | nil => exact le_rfl
  | cons q qs ih =>
    refine le_trans ?_ (ih (inv_call b hg hi q))
    obtain ⟨o', hf, ea, -, -⟩ := call_filled b hg hi q
    rw [ea]
    rcases hf with ⟨hf, -⟩ | rfl
    · exact hf.le
    · exact le_rfl

/-- **C72 is false for derivative matrices**: whatever the history of the object and however the vector grows, every reference to a derivative matrix is left dangling for good by some later
request of a higher order. -/
theorem C72_block_dangles_false (b : Basis) (grow : ℕ → ℕ) (hg : Grows grow) (hist : List Req) (d : ℕ) (r : Ref) (o : Obj)
    (hr : call b grow (calls b grow (new grow) hist) (.block d) = (o, .ok r)) :
    ∃ D, ∀ later : List Req, deref (calls b grow o (.block D :: later)) r = .error .ub := by
  have ho : o = calls b grow (new grow) (hist ++ [.block d]) := by
    rw [calls_append]; exact (congrArg Prod.fst hr).symm
  have hr' : Ref.block o.alloc d = r := by
    have h1 : (call b grow (calls b grow (new grow) hist) (.block d)).1 = o := congrArg Prod.fst hr
    have h2 := congrArg Prod.snd hr
    rw [← h1]
    exact Except.ok.inj h2
  have hi := inv_calls b hg (inv_new b hg) (hist ++ [.block d])
  rw [← ho] at hi
  refine ⟨o.cap, fun later => ?_⟩
  have hf := fill_spec b hg hi.cap o.cap
  have hlt : o.alloc < (fill b grow o o.cap).alloc := by
    refine lt_of_le_of_ne hf.le fun e => ?_
    have := hf.same.1 e.symm
    rw [hf.length] at this
    omega
  have := lt_of_lt_of_le hlt (alloc_mono b hg (hf.inv hi) later)
  rw [calls_cons, ← hr']
  change deref (calls b grow (fill b grow o o.cap) later) _ = _
  simp only [deref, if_neg this.ne]

/-- **C72**, continuity matrices and derivative matrices of splines: the reference stays valid through any later calls, and shows the matrix for the interval lengths of the last of the calls, from
the one that returned it on, that has the same sizes, if that call has succeeded. -/
theorem C72_matrix_last_partial (b : Basis) (grow : ℕ → ℕ) (hg : Grows grow) (hist : List Req) (q : Req) (hq : ∀ d, q ≠ .block d) (r : Ref) (o : Obj)
    (hr : call b grow (calls b grow (new grow) hist) q = (o, .ok r)) (later : List Req) (l1 : List Req) (q' : Req) (l2 : List Req) (hlater : q :: later = l1 ++ q' :: l2)
    (hs : SameSizes q q') (hm : ∃ m, answer b q' = .ok m) (hl2 : ∀ p ∈ l2, ¬ SameSizes q p) :
    deref (calls b grow o later) r = answer b q' := by
  have ho : calls b grow o later = calls b grow (calls b grow (new grow) hist) (l1 ++ q' :: l2) := by
    rw [← hlater, calls_cons, hr]
  rw [ho]
  clear ho hlater
  have hi := inv_calls b hg (inv_new b hg) hist
  obtain ⟨m, hm⟩ := hm
  rw [calls_append, calls_cons, hm]
  have hi1 := inv_calls b hg hi l1
  generalize calls b grow (calls b grow (new grow) hist) l1 = o1 at hi1
  have hi2 := inv_call b hg hi1 q'
  cases q with
  | block d => exact absurd rfl (hq d)
  | cont n c k tau =>
    cases q' with
    | block d => exact hs.elim
    | dmat => exact hs.elim
    | cont n' c' k' tau' =>
      obtain ⟨rfl, rfl, rfl⟩ := hs
      have hr' : Ref.cont (n, c, k) = r := by
        have h2 := congrArg Prod.snd hr
        change (_ : Res Mat).map _ = _ at h2
        cases hx : (b.continuityMatrix n c k tau (calls b grow (new grow) hist).cont).2 with
        | error e => rw [hx] at h2; cases h2
        | ok m => rw [hx] at h2; exact Except.ok.inj h2
      obtain ⟨st, e⟩ := (cont_frame b n c k tau' o1.cont).2 m ((Basis.continuityMatrix_spec hi1.cont n c k tau').2.trans hm)
      have h0 : (call b grow o1 (.cont n c k tau')).1.cont (n, c, k) = some (st, m) := e
      rw [← hr']
      generalize (call b grow o1 (.cont n c k tau')).1 = o2 at h0 hi2
      induction l2 generalizing o2 with
      | nil => simp only [calls, List.foldl, deref, h0]
      | cons p l2 ih =>
        rw [calls_cons]
        refine ih (fun p' hp' => hl2 p' (by simp [hp'])) _ ?_ (inv_call b hg hi2 p)
        rw [(call_maps b hg hi2 p).1 n c k fun t ht => hl2 p (by simp) ?_]
        · exact h0
        · cases p with
          | block d => exact ht.elim
          | dmat => exact ht.elim
          | cont => exact ht
  | dmat n c k tau =>
    cases q' with
    | block d => exact hs.elim
    | cont => exact hs.elim
    | dmat n' c' k' tau' =>
      obtain ⟨rfl, rfl, rfl⟩ := hs
      have hr' : Ref.dmat (n, c, k) = r := by
        have h2 := congrArg Prod.snd hr
        change (_ : Res Mat).map _ = _ at h2
        cases hx : (b.gsplineDerivativeMatrix n c k tau (calls b grow (new grow) hist).dmat).2 with
        | error e => rw [hx] at h2; cases h2
        | ok m => rw [hx] at h2; exact Except.ok.inj h2
      obtain ⟨st, e⟩ := (dmat_frame b n c k tau' o1.dmat).2 m ((Basis.gsplineDerivativeMatrix_spec hi1.dmat n c k tau').2.trans hm)
      have h0 : (call b grow o1 (.dmat n c k tau')).1.dmat (n, c, k) = some (st, m) := e
      rw [← hr']
      generalize (call b grow o1 (.dmat n c k tau')).1 = o2 at h0 hi2
      induction l2 generalizing o2 with
      | nil => simp only [calls, List.foldl, deref, h0]
      | cons p l2 ih =>
        rw [calls_cons]
        refine ih (fun p' hp' => hl2 p' (by simp [hp'])) _ ?_ (inv_call b hg hi2 p)
        rw [(call_maps b hg hi2 p).2 n c k fun t ht => hl2 p (by simp) ?_]
        · exact h0
        · cases p with
          | block d => exact ht.elim
          | cont => exact ht.elim
          | dmat => exact ht

/-- The derivative matrix of a spline with one interval and one component, in the Lagrange basis with the nodes `-1` and `1`. -/
theorem answer_line (t : ℝ) (ht : t ≠ 0) : ∃ m, answer (.lagrange [-1, 1]) (.dmat 1 1 1 [t]) = .ok m ∧ m 0 0 = -1 / t := by
  unfold answer Basis.gsplineDerivativeMatrix
  simp only [List.length_cons, List.length_nil]
  rw [if_neg (by omega), if_neg (by simpa using fun _ => ht.symm)]
  refine ⟨_, rfl, ?_⟩
  simp [Basis.derivScale, Basis.derivStatic, Basis.derivBlock, Basis.dim, Basis.derivMatrixImpl, Lagrange.derivMatrixImpl, Lagrange.dmat, Lagrange.dmat1, Lagrange.dmatRow,
    Lagrange.baryWeights, Lagrange.baryProducts, forLoop, List.range', setAt2, setAt, vecOf]
  field_simp
  norm_num

/-- **C72 is false for the matrices that depend on interval lengths**: the matrix behind a reference changes when the object is asked for the matrix of other lengths. -/
theorem C72_matrix_overwritten_false : ∃ (b : Basis) (q q' : Req), ∀ grow, Grows grow → ∃ (o : Obj) (r : Ref), call b grow (new grow) q = (o, .ok r) ∧
    (∃ m, deref o r = .ok m ∧ m 0 0 = -1) ∧ ∃ m, deref (calls b grow o [q']) r = .ok m ∧ m 0 0 = -1 / 2 := by
  refine ⟨.lagrange [-1, 1], .dmat 1 1 1 [1], .dmat 1 1 1 [2], fun grow hg => ?_⟩
  obtain ⟨m1, e1, h1⟩ := answer_line 1 one_ne_zero
  obtain ⟨m2, e2, h2⟩ := answer_line 2 two_ne_zero
  have hnow := C72_now (.lagrange [-1, 1]) grow hg [] (.dmat 1 1 1 [1])
  rw [e1] at hnow
  rw [show calls (.lagrange [-1, 1]) grow (new grow) [] = new grow from rfl] at hnow
  rcases hc : call (.lagrange [-1, 1]) grow (new grow) (.dmat 1 1 1 [1]) with ⟨o, res⟩
  rw [hc] at hnow
  cases res with
  | error e => cases hnow
  | ok r =>
    refine ⟨o, r, rfl, ⟨m1, hnow, by rw [h1]; norm_num⟩, m2, ?_, h2⟩
    rw [← e2]
    exact C72_matrix_last_partial (.lagrange [-1, 1]) grow hg [] (.dmat 1 1 1 [1]) (by simp) r o hc [.dmat 1 1 1 [2]] [.dmat 1 1 1 [1]] (.dmat 1 1 1 [2]) [] rfl ⟨rfl, rfl, rfl⟩ ⟨m2, e2⟩ (by simp)

/-- The rule of the usual implementation, which doubles the capacity. -/
theorem grows_double : Grows fun c => max 1 (2 * c) := fun c => by simp only; omega

/-- The hypotheses of `C72_block_stays_partial` are met: order 1, after order 3 had been asked for, and then a continuity matrix of order 2. -/
example : ∃ r o, call (.lagrange [-1, 1]) (fun c => max 1 (2 * c)) (calls (.lagrange [-1, 1]) (fun c => max 1 (2 * c)) (new fun c => max 1 (2 * c)) [.block 3]) (.block 1) = (o, .ok r) ∧
    deref (calls (.lagrange [-1, 1]) (fun c => max 1 (2 * c)) o [.cont 2 1 2 [1, 1]]) r = answer (.lagrange [-1, 1]) (.block 1) :=
  ⟨_, _, rfl, C72_block_stays_partial _ _ grows_double [.block 3] 1 _ _ rfl _ fun q hq => ⟨.block 3, by simp, ⟨_, rfl⟩, by
    rw [List.mem_singleton.1 hq]; simp [derivOrder]⟩⟩

/-- The hypotheses of `C72_block_dangles_false` are met by every new object. -/
example (b : Basis) : ∃ r o D, call b (fun c => max 1 (2 * c)) (new fun c => max 1 (2 * c)) (.block 1) = (o, .ok r) ∧
    deref (calls b (fun c => max 1 (2 * c)) o [.block D]) r = .error .ub := by
  obtain ⟨D, h⟩ := C72_block_dangles_false b _ grows_double [] 1 _ _ rfl
  exact ⟨_, _, D, rfl, h []⟩

end GSplines.Props
