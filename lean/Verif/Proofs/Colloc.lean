import Verif.Spec.Colloc
import Verif.Proofs.GSpline
import Verif.Proofs.GLL
import Verif.Proofs.Sobolev
import Verif.Proofs.SobolevGrad
import Mathlib.Tactic.Ring
import Mathlib.Tactic.Linarith

/-!
# Lemmas on collocation splines
-/

namespace GSplines.Colloc

open GSplines Spec GLL Finset

theorem idx_lt {n d c iv y : ℕ} (hiv : iv < n) (hy : y < d * c) : iv * d * c + y < n * d * c := by
  have h : (iv + 1) * (d * c) ≤ n * (d * c) := Nat.mul_le_mul_right _ hiv
  rw [Nat.mul_assoc, Nat.mul_assoc]
  rw [Nat.succ_mul] at h
  omega

theorem col_lt {d codim c k : ℕ} (hc : c < codim) (hk : k < d) : d * c + k < d * codim := by
  have h : d * (c + 1) ≤ d * codim := Nat.mul_le_mul_left _ hc
  rw [Nat.mul_succ] at h
  omega

theorem col_div {d c k : ℕ} (hk : k < d) : (d * c + k) / d = c ∧ (d * c + k) % d = k := by
  refine ⟨?_, ?_⟩
  · rw [Nat.mul_add_div (by omega), Nat.div_eq_of_lt hk, Nat.add_zero]
  · rw [Nat.mul_add_mod, Nat.mod_eq_of_lt hk]

theorem node_div {d iv k : ℕ} (hk : k < d) : (iv * d + k) / d = iv ∧ (iv * d + k) % d = k := by
  rw [Nat.mul_comm]; exact col_div hk

theorem forLoopM_succ {σ : Type} (n : ℕ) (body : ℕ → σ → Res σ) (s : σ) : forLoopM 0 (n + 1) body s = forLoopM 0 n body s >>= body n := by
  unfold forLoopM
  rw [Nat.sub_zero, Nat.sub_zero, List.range'_concat, List.foldlM_append]
  simp

/-! ## Blocks -/

theorem storeBlock_spec (n codim iv : ℕ) (rows : List (List ℝ)) (v : Vec) :
    (∀ y < n * codim, storeBlock n codim iv rows v (iv * n * codim + y) = entry rows (y % n) (y / n)) ∧
      ∀ x, (x < iv * n * codim ∨ iv * n * codim + n * codim ≤ x) → storeBlock n codim iv rows v x = v x := by
  unfold storeBlock
  have := forLoop_ind (fun j s => (∀ y < j, s (iv * n * codim + y) = entry rows (y % n) (y / n)) ∧
      ∀ x, (x < iv * n * codim ∨ iv * n * codim + j ≤ x) → s x = v x) (Nat.zero_le (n * codim))
    (fun y v => setAt v (iv * n * codim + y) (entry rows (y % n) (y / n))) v ⟨by simp, fun _ _ => rfl⟩ ?_
  · exact this
  · rintro j s - hj ⟨h1, h2⟩
    refine ⟨fun y hy => ?_, fun x hx => ?_⟩
    · rcases Nat.lt_succ_iff_lt_or_eq.mp hy with h | rfl
      · rw [setAt_ne _ _ (by omega)]; exact h1 y h
      · rw [setAt_self]
    · rw [setAt_ne _ _ (by omega)]; exact h2 x (by omega)

/-- The loop over the intervals: every block holds its own matrix at the end. -/
theorem blocks_spec {σ : Type} (n codim m : ℕ) (R : ℕ → List (List ℝ)) (body : ℕ → Vec × σ → Res (Vec × σ)) (v : Vec) (s : σ)
    (S : ℕ → σ) (h0 : S 0 = s) (hb : ∀ iv < m, ∀ v, body iv (v, S iv) = .ok (storeBlock n codim iv (R iv) v, S (iv + 1))) :
    ∃ w, forLoopM 0 m body (v, s) = .ok (w, S m) ∧
      (∀ iv < m, ∀ y < n * codim, w (iv * n * codim + y) = entry (R iv) (y % n) (y / n)) ∧ ∀ x, m * n * codim ≤ x → w x = v x := by
  unfold forLoopM
  rw [Nat.sub_zero]
  induction m with
  | zero => exact ⟨v, by rw [← h0]; rfl, by simp, fun _ _ => rfl⟩
  | succ m ih =>
    obtain ⟨w, h1, h2, h3⟩ := ih (fun iv hiv => hb iv (by omega))
    rw [List.range'_concat, List.foldlM_append, h1, ok_bind]
    simp only [zero_add, one_mul, List.foldlM_cons, List.foldlM_nil]
    rw [hb m (by omega) w, ok_bind]
    obtain ⟨e1, e2⟩ := storeBlock_spec n codim m (R m) w
    refine ⟨_, rfl, fun iv hiv y hy => ?_, fun x hx => ?_⟩
    · rcases Nat.lt_succ_iff_lt_or_eq.mp hiv with h | rfl
      · rw [e2 _ (.inl (idx_lt h hy))]; exact h2 iv h y hy
      · exact e1 y hy
    · have : (m + 1) * n * codim = m * n * codim + n * codim := by ring
      rw [e2 _ (.inr (by omega)), h3 x (by omega)]

theorem entry_col {rows : List (List ℝ)} {d c k : ℕ} (hk : k < d) : entry rows ((d * c + k) % d) ((d * c + k) / d) = entry rows k c := by
  obtain ⟨h1, h2⟩ := col_div (c := c) hk
  rw [h1, h2]

/-! ## value_at -/

theorem valueAt_ok {g : GSpline} (hc : Consistent g) {iv k : ℕ} (hiv : iv < g.tau.length) (hk : k < g.basis.dim) :
    valueAt g (iv * g.basis.dim + k) = .ok (nodalRow g iv k) := by
  unfold valueAt
  have h1 : iv * g.basis.dim + k < g.basis.dim * g.nIntervals := by
    have := col_lt (d := g.basis.dim) hiv hk
    rw [Nat.mul_comm iv]; exact this
  obtain ⟨e1, e2⟩ := node_div (iv := iv) hk
  rw [if_neg (by omega)]
  simp only [e1, e2]
  rw [if_neg (by simpa using hiv), segment_ok, ok_bind]
  · change Except.ok _ = _
    unfold nodalRow
    congr 1
    refine List.map_congr_left fun c hcc => ?_
    rw [List.mem_range] at hcc
    rw [vecOf_segment (by have := col_lt hcc hk; rw [Nat.mul_comm c]; exact this)]
    unfold nodal
    congr 1; ring
  · rw [hc]
    have h : (iv + 1) * (g.basis.dim * g.codim) ≤ g.tau.length * (g.basis.dim * g.codim) := Nat.mul_le_mul_right _ hiv
    rw [Nat.mul_assoc]
    rw [Nat.succ_mul] at h
    exact h

/-! ## mapBlocks -/

theorem inner_ok {F : ℕ → ℝ → Res ℝ} {B : ℕ → ℝ} (i0 d : ℕ) (l : List ℝ) (hl : i0 + d ≤ l.length) (hF : ∀ y < d, F y (vecOf l (i0 + y)) = .ok (B (i0 + y))) :
    ∃ l', forLoopM 0 d (fun y l => do
        let x ← rd l (i0 + y)
        let z ← F y x
        return l.set (i0 + y) z) l = .ok l' ∧ l'.length = l.length ∧ (∀ x, vecOf l' x = if i0 ≤ x ∧ x < i0 + d then B x else vecOf l x) := by
  unfold forLoopM
  rw [Nat.sub_zero]
  induction d with
  | zero => exact ⟨l, rfl, rfl, fun x => by rw [if_neg (by omega)]⟩
  | succ d ih =>
    obtain ⟨l', h1, h2, h3⟩ := ih (by omega) (fun y hy => hF y (by omega))
    rw [List.range'_concat, List.foldlM_append, h1, ok_bind]
    simp only [zero_add, one_mul, List.foldlM_cons, List.foldlM_nil]
    rw [rd_ok (by omega), ok_bind, h3, if_neg (by omega), hF d (by omega), ok_bind]
    refine ⟨_, rfl, by simp [h2], fun x => ?_⟩
    rw [Sobolev.vecOf_set (by omega), Function.update_apply, h3]
    split_ifs <;> first | rfl | omega | (subst_vars; rfl) 

theorem mapBlocks_ok {g : GSpline} (hc : Consistent g) (F : ℕ → ℕ → ℕ → ℝ → Res ℝ) (B : ℕ → ℕ → ℕ → ℝ)
    (hF : ∀ iv < g.tau.length, ∀ c < g.codim, ∀ k < g.basis.dim, F iv k c (nodal g iv c k) = .ok (B iv c k)) :
    ∃ co, mapBlocks g F = .ok { g with coeffs := co } ∧ co.length = g.coeffs.length ∧
      ∀ iv < g.tau.length, ∀ c < g.codim, ∀ k < g.basis.dim, nodal { g with coeffs := co } iv c k = B iv c k := by
  set d := g.basis.dim with hd
  set D := d * g.codim with hD
  set b : ℕ → ℝ := fun x => B (x / D) (x % D / d) (x % D % d) with hb
  have key : ∀ n, n ≤ g.tau.length → ∃ co, forLoopM 0 n (fun iv l => forLoopM 0 D (fun y l => do
      let x ← rd l (iv * D + y)
      let z ← F iv (y % d) (y / d) x
      return l.set (iv * D + y) z) l) g.coeffs = .ok co ∧ co.length = g.coeffs.length ∧
      ∀ x, vecOf co x = if x < n * D then b x else vecOf g.coeffs x := by
    intro n
    induction n with
    | zero => intro _; exact ⟨g.coeffs, rfl, rfl, fun x => by rw [if_neg (by omega)]⟩
    | succ n ih =>
      intro hn
      obtain ⟨co, h1, h2, h3⟩ := ih (by omega)
      have hlen : n * D + D ≤ g.coeffs.length := by
        rw [hc, Nat.mul_assoc]
        have h : (n + 1) * D ≤ g.tau.length * D := Nat.mul_le_mul_right _ hn
        rw [Nat.succ_mul] at h
        exact h
      obtain ⟨co', e1, e2, e3⟩ := inner_ok (F := fun y => F n (y % d) (y / d)) (B := b) (n * D) D co (by omega) (fun y hy => by
        have hd0 : 0 < d := by
          rcases Nat.eq_zero_or_pos d with h | h
          · rw [hD, h, Nat.zero_mul] at hy; omega
          · exact h
        have hyc : y / d < g.codim := by rw [Nat.div_lt_iff_lt_mul hd0, Nat.mul_comm]; exact hy
        have := hF n (by omega) (y / d) hyc (y % d) (Nat.mod_lt _ hd0)
        rw [h3, if_neg (by omega)]
        have e : nodal g n (y / d) (y % d) = vecOf g.coeffs (n * D + y) := by
          unfold nodal
          rw [← hd, Nat.add_assoc, Nat.div_add_mod, Nat.mul_assoc]
        rw [e] at this
        rw [this, hb]
        have : (n * D + y) / D = n ∧ (n * D + y) % D = y := node_div hy
        simp only [this.1, this.2])
      rw [forLoopM_succ, h1, ok_bind]
      refine ⟨co', e1, by omega, fun x => ?_⟩
      rw [e3, h3, Nat.succ_mul]
      split_ifs <;> first | rfl | omega
  obtain ⟨co, h1, h2, h3⟩ := key g.tau.length le_rfl
  refine ⟨co, ?_, h2, fun iv hiv c hcc k hk => ?_⟩
  · unfold mapBlocks
    change (forLoopM 0 g.tau.length _ _ >>= _) = _
    rw [h1, ok_bind]; rfl
  · have hy := col_lt hcc hk
    have := idx_lt hiv hy
    unfold nodal
    dsimp only
    rw [Nat.add_assoc, h3, ← hd, if_pos (by rw [hD, ← Nat.mul_assoc]; exact this), hb]
    have e : (iv * d * g.codim + (d * c + k)) / D = iv ∧ (iv * d * g.codim + (d * c + k)) % D = d * c + k := by
      rw [Nat.mul_assoc]; exact node_div hy
    simp only [e.1, e.2, (col_div (c := c) hk).1, (col_div (c := c) hk).2]

end GSplines.Colloc
