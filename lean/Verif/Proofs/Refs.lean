import Verif.Spec.Refs
import Verif.Proofs.BasisCache

/-!
# Matrices returned by reference: lemmas
-/

namespace GSplines.Refs

open GSplines Spec

/-- What holds of an object after any calls. -/
structure Inv (b : Basis) (o : Obj) : Prop where
  blocks : b.CacheInv o.blocks
  cap : o.blocks.length ≤ o.cap
  cont : b.ContInv o.cont
  dmat : b.DerivInv o.dmat
  /-- the blocks of the orders of the matrices in the maps have been asked for -/
  contLen : ∀ n c k, (o.cont (n, c, k)).isSome → k < o.blocks.length
  dmatLen : ∀ n c k, (o.dmat (n, c, k)).isSome → k < o.blocks.length
  pos : 0 < o.blocks.length

theorem pushBack_blocks (grow : ℕ → ℕ) (o : Obj) (m : Mat) : (pushBack grow o m).blocks = o.blocks ++ [m] := by unfold pushBack; split_ifs <;> rfl
theorem pushBack_cont (grow : ℕ → ℕ) (o : Obj) (m : Mat) : (pushBack grow o m).cont = o.cont := by unfold pushBack; split_ifs <;> rfl
theorem pushBack_dmat (grow : ℕ → ℕ) (o : Obj) (m : Mat) : (pushBack grow o m).dmat = o.dmat := by unfold pushBack; split_ifs <;> rfl

/-- What a loop of `push_back` does. -/
structure Filled (b : Basis) (o : Obj) (d : ℕ) (o' : Obj) : Prop where
  blocks : o'.blocks = o.blocks ++ (List.range' o.blocks.length (d + 1 - o.blocks.length)).map b.derivMatrixImpl
  cap : o'.blocks.length ≤ o'.cap
  cont : o'.cont = o.cont
  dmat : o'.dmat = o.dmat
  le : o.alloc ≤ o'.alloc
  /-- an allocation is given up exactly if it is too small -/
  same : o'.alloc = o.alloc ↔ o'.blocks.length ≤ o.cap

theorem fill_spec (b : Basis) {grow : ℕ → ℕ} (hg : Grows grow) {o : Obj} (hc : o.blocks.length ≤ o.cap) (d : ℕ) : Filled b o d (fill b grow o d) := by
  unfold fill
  rcases Nat.le_total o.blocks.length (d + 1) with h | h
  · have := forLoop_ind (fun k (o' : Obj) => o'.blocks = o.blocks ++ (List.range' o.blocks.length (k - o.blocks.length)).map b.derivMatrixImpl ∧ o'.blocks.length ≤ o'.cap ∧
      o'.cont = o.cont ∧ o'.dmat = o.dmat ∧ ((o'.alloc = o.alloc ∧ o'.cap = o.cap) ∨ (o.alloc < o'.alloc ∧ o.cap < o'.blocks.length))) h
      (fun k o => pushBack grow o (b.derivMatrixImpl k)) o ⟨by simp, hc, rfl, rfl, .inl ⟨rfl, rfl⟩⟩ (by
        rintro k st hk _ ⟨h1, h2, h3, h4, h5⟩
        have hl : st.blocks.length = k := by rw [h1]; simp; omega
        refine ⟨?_, ?_, by rw [pushBack_cont, h3], by rw [pushBack_dmat, h4], ?_⟩
        · rw [pushBack_blocks, h1, show k + 1 - o.blocks.length = (k - o.blocks.length) + 1 by omega, List.range'_concat, List.append_assoc]
          simp [show o.blocks.length + (k - o.blocks.length) = k by omega]
        · unfold pushBack
          split_ifs with hlt
          · simp; omega
          · have := hg st.cap
            simp; omega
        · unfold pushBack
          split_ifs with hlt
          · rcases h5 with ⟨e1, e2⟩ | ⟨e1, e2⟩
            · exact .inl ⟨e1, e2⟩
            · exact .inr ⟨e1, by simp; omega⟩
          · refine .inr ⟨?_, ?_⟩
            · rcases h5 with ⟨e1, e2⟩ | ⟨e1, e2⟩ <;> simp <;> omega
            · rcases h5 with ⟨e1, e2⟩ | ⟨e1, e2⟩ <;> simp <;> omega)
    obtain ⟨h1, h2, h3, h4, h5⟩ := this
    refine ⟨h1, h2, h3, h4, ?_, ?_⟩
    · rcases h5 with ⟨e, -⟩ | ⟨e, -⟩ <;> omega
    · rcases h5 with ⟨e1, e2⟩ | ⟨e1, e2⟩
      · exact ⟨fun _ => e2 ▸ h2, fun _ => e1⟩
      · constructor <;> intro _ <;> omega
  · rw [forLoop_of_le h]
    exact ⟨by simp [Nat.sub_eq_zero_of_le h], hc, rfl, rfl, le_rfl, by simp [hc]⟩

theorem Filled.length {b : Basis} {o o' : Obj} {d : ℕ} (h : Filled b o d o') : o'.blocks.length = max o.blocks.length (d + 1) := by
  rw [h.blocks]; simp; omega

theorem Filled.inv {b : Basis} {o o' : Obj} {d : ℕ} (h : Filled b o d o') (hi : Inv b o) : Inv b o' := by
  have hl := h.length
  refine ⟨?_, h.cap, h.cont ▸ hi.cont, h.dmat ▸ hi.dmat, fun n c k hk => ?_, fun n c k hk => ?_, by have := hi.pos; omega⟩
  · intro k hk
    rw [List.getElem_of_eq h.blocks]
    rcases Nat.lt_or_ge k o.blocks.length with h1 | h1
    · rw [List.getElem_append_left h1]; exact hi.blocks k h1
    · rw [List.getElem_append_right h1]
      simp [show o.blocks.length + (k - o.blocks.length) = k by omega]
  · have := hi.contLen n c k (h.cont ▸ hk); omega
  · have := hi.dmatLen n c k (h.dmat ▸ hk); omega

theorem inv_new (b : Basis) {grow : ℕ → ℕ} (hg : Grows grow) : Inv b (new grow) := by
  have h0 := hg 0
  have hb : (new grow).blocks = [Mat.id] := rfl
  have hc : (new grow).cap = grow 0 := rfl
  refine ⟨?_, by rw [hb, hc]; simpa [Nat.one_le_iff_ne_zero, Nat.pos_iff_ne_zero] using h0, b.contInv_empty, b.derivInv_empty, ?_, ?_, by rw [hb]; simp⟩
  · rw [hb]; exact b.cacheInv_cache0
  · intro n c k h; exact absurd h (by simp [new, pushBack])
  · intro n c k h; exact absurd h (by simp [new, pushBack])

theorem set_frame (cc : Basis.CCache) (k k' : Basis.CKey) (v : Mat × Mat) (h : k' ≠ k) : cc.set k v k' = cc k' := by simp [Basis.CCache.set, h]
theorem set_self (cc : Basis.CCache) (k : Basis.CKey) (v : Mat × Mat) : cc.set k v k = some v := by simp [Basis.CCache.set]

/-- What `continuity_matrix` does to the maps. -/
theorem cont_frame (b : Basis) (n codim order : ℕ) (tau : List ℝ) (cc : Basis.CCache) :
    (∀ k, k ≠ (n, codim, order) ∨ n = 0 → (b.continuityMatrix n codim order tau cc).1 k = cc k) ∧
    ∀ m, (b.continuityMatrix n codim order tau cc).2 = .ok m → ∃ st, (b.continuityMatrix n codim order tau cc).1 (n, codim, order) = some (st, m) := by
  unfold Basis.continuityMatrix
  by_cases hn : n = 0
  · simp [hn]
  simp only [hn, if_false, or_false]
  cases hcc : cc (n, codim, order) with
  | some p =>
    obtain ⟨st, dy⟩ := p
    simp only
    split_ifs with hu hz
    · exact ⟨fun k _ => rfl, fun m h => by cases h⟩
    · exact ⟨fun k _ => rfl, fun m h => by cases h⟩
    · refine ⟨fun k hk => set_frame _ _ _ _ hk, fun m h => ⟨st, ?_⟩⟩
      cases h; exact set_self _ _ _
  | none =>
    cases b.contBuf true order with
    | error e => exact ⟨fun k _ => rfl, fun m h => by cases h⟩
    | ok l =>
      cases b.contBuf false order with
      | error e => exact ⟨fun k _ => rfl, fun m h => by cases h⟩
      | ok r =>
        simp only
        split_ifs with hu hz
        · exact ⟨fun k hk => set_frame _ _ _ _ hk, fun m h => by cases h⟩
        · exact ⟨fun k hk => set_frame _ _ _ _ hk, fun m h => by cases h⟩
        · refine ⟨fun k hk => (set_frame _ _ _ _ hk).trans (set_frame _ _ _ _ hk), fun m h => ⟨Basis.contStatic b.dim n codim order l r, ?_⟩⟩
          cases h; exact set_self _ _ _

/-- What `gspline_derivative_matrix` does to the maps. -/
theorem dmat_frame (b : Basis) (n codim order : ℕ) (tau : List ℝ) (cc : Basis.CCache) :
    (∀ k, k ≠ (n, codim, order) → (b.gsplineDerivativeMatrix n codim order tau cc).1 k = cc k) ∧
    ∀ m, (b.gsplineDerivativeMatrix n codim order tau cc).2 = .ok m → ∃ st, (b.gsplineDerivativeMatrix n codim order tau cc).1 (n, codim, order) = some (st, m) := by
  unfold Basis.gsplineDerivativeMatrix
  cases hcc : cc (n, codim, order) with
  | some p =>
    obtain ⟨st, dy⟩ := p
    simp only
    split_ifs with hu hz
    · exact ⟨fun k _ => rfl, fun m h => by cases h⟩
    · exact ⟨fun k _ => rfl, fun m h => by cases h⟩
    · refine ⟨fun k hk => set_frame _ _ _ _ hk, fun m h => ⟨st, ?_⟩⟩
      cases h; exact set_self _ _ _
  | none =>
    simp only
    split_ifs with hu hz
    · exact ⟨fun k hk => set_frame _ _ _ _ hk, fun m h => by cases h⟩
    · exact ⟨fun k hk => set_frame _ _ _ _ hk, fun m h => by cases h⟩
    · refine ⟨fun k hk => (set_frame _ _ _ _ hk).trans (set_frame _ _ _ _ hk), fun m h => ⟨Basis.derivStatic b.dim n codim (b.derivBlock order), ?_⟩⟩
      cases h; exact set_self _ _ _

/-- A call extends the vector to the order of the request, or leaves it. -/
theorem call_filled (b : Basis) {grow : ℕ → ℕ} (hg : Grows grow) {o : Obj} (hi : Inv b o) (q : Req) :
    ∃ o', ((Filled b o (derivOrder q) o' ∧ ∀ n c k tau, q = .cont n c k tau → n ≠ 0) ∨ o' = o) ∧ (call b grow o q).1.alloc = o'.alloc ∧ (call b grow o q).1.cap = o'.cap ∧
      (call b grow o q).1.blocks = o'.blocks := by
  have hf := fill_spec b hg hi.cap (derivOrder q)
  cases q with
  | block d => exact ⟨_, .inl ⟨hf, by simp⟩, rfl, rfl, rfl⟩
  | cont n c k tau =>
    by_cases h : n = 0 ∨ (o.cont (n, c, k)).isSome
    · exact ⟨o, .inr rfl, by simp only [call]; rw [if_pos h], by simp only [call]; rw [if_pos h], by simp only [call]; rw [if_pos h]⟩
    · refine ⟨_, .inl ⟨hf, ?_⟩, by simp only [call]; rw [if_neg h]; rfl, by simp only [call]; rw [if_neg h]; rfl, by simp only [call]; rw [if_neg h]; rfl⟩
      rintro n' c' k' tau' ⟨⟩
      exact fun h' => h (.inl h')
  | dmat n c k tau =>
    by_cases h : (o.dmat (n, c, k)).isSome
    · exact ⟨o, .inr rfl, by simp only [call]; rw [if_pos h], by simp only [call]; rw [if_pos h], by simp only [call]; rw [if_pos h]⟩
    · exact ⟨_, .inl ⟨hf, by simp⟩, by simp only [call]; rw [if_neg h]; rfl, by simp only [call]; rw [if_neg h]; rfl, by simp only [call]; rw [if_neg h]; rfl⟩

theorem inv_call (b : Basis) {grow : ℕ → ℕ} (hg : Grows grow) {o : Obj} (hi : Inv b o) (q : Req) : Inv b (call b grow o q).1 := by
  have hf := fill_spec b hg hi.cap (derivOrder q)
  have hfi := hf.inv hi
  have hl := hf.length
  cases q with
  | block d => exact hfi
  | cont n c k tau =>
    obtain ⟨h1, -⟩ := Basis.continuityMatrix_spec hi.cont n c k tau
    obtain ⟨hfr, -⟩ := cont_frame b n c k tau o.cont
    by_cases h : n = 0 ∨ (o.cont (n, c, k)).isSome
    · have e : (call b grow o (.cont n c k tau)).1 = { o with cont := (b.continuityMatrix n c k tau o.cont).1 } := by simp only [call]; rw [if_pos h]
      rw [e]
      refine ⟨hi.blocks, hi.cap, h1, hi.dmat, fun n' c' k' hk => ?_, hi.dmatLen, hi.pos⟩
      by_cases hk' : (n', c', k') ≠ (n, c, k) ∨ n = 0
      · exact hi.contLen n' c' k' (by rw [← hfr _ hk']; exact hk)
      · push Not at hk'
        obtain ⟨⟨⟩, hn⟩ := hk'
        exact hi.contLen n c k (h.resolve_left hn)
    · have e : (call b grow o (.cont n c k tau)).1 = { fill b grow o k with cont := (b.continuityMatrix n c k tau o.cont).1 } := by simp only [call]; rw [if_neg h]
      rw [e]
      refine ⟨hfi.blocks, hfi.cap, h1, hfi.dmat, fun n' c' k' hk => ?_, hfi.dmatLen, hfi.pos⟩
      by_cases hk' : (n', c', k') = (n, c, k)
      · cases hk'
        change k < (fill b grow o k).blocks.length
        simp only [derivOrder] at hl; omega
      · have := hi.contLen n' c' k' (by rw [← hfr _ (.inl hk')]; exact hk)
        change k' < (fill b grow o k).blocks.length
        simp only [derivOrder] at hl; omega
  | dmat n c k tau =>
    obtain ⟨h1, -⟩ := Basis.gsplineDerivativeMatrix_spec hi.dmat n c k tau
    obtain ⟨hfr, -⟩ := dmat_frame b n c k tau o.dmat
    by_cases h : (o.dmat (n, c, k)).isSome
    · have e : (call b grow o (.dmat n c k tau)).1 = { o with dmat := (b.gsplineDerivativeMatrix n c k tau o.dmat).1 } := by simp only [call]; rw [if_pos h]
      rw [e]
      refine ⟨hi.blocks, hi.cap, hi.cont, h1, hi.contLen, fun n' c' k' hk => ?_, hi.pos⟩
      by_cases hk' : (n', c', k') = (n, c, k)
      · cases hk'; exact hi.dmatLen n c k h
      · exact hi.dmatLen n' c' k' (by rw [← hfr _ hk']; exact hk)
    · have e : (call b grow o (.dmat n c k tau)).1 = { fill b grow o k with dmat := (b.gsplineDerivativeMatrix n c k tau o.dmat).1 } := by simp only [call]; rw [if_neg h]
      rw [e]
      refine ⟨hfi.blocks, hfi.cap, hfi.cont, h1, hfi.contLen, fun n' c' k' hk => ?_, hfi.pos⟩
      by_cases hk' : (n', c', k') = (n, c, k)
      · cases hk'
        change k < (fill b grow o k).blocks.length
        simp only [derivOrder] at hl; omega
      · have := hi.dmatLen n' c' k' (by rw [← hfr _ hk']; exact hk)
        change k' < (fill b grow o k).blocks.length
        simp only [derivOrder] at hl; omega

theorem inv_calls (b : Basis) {grow : ℕ → ℕ} (hg : Grows grow) {o : Obj} (hi : Inv b o) (qs : List Req) : Inv b (calls b grow o qs) := by
  induction qs generalizing o with
  | nil => exact hi
  | cons q qs ih => exact ih (inv_call b hg hi q)

theorem calls_cons (b : Basis) (grow : ℕ → ℕ) (o : Obj) (q : Req) (qs : List Req) : calls b grow o (q :: qs) = calls b grow (call b grow o q).1 qs := rfl

theorem calls_append (b : Basis) (grow : ℕ → ℕ) (o : Obj) (qs qs' : List Req) : calls b grow o (qs ++ qs') = calls b grow (calls b grow o qs) qs' := List.foldl_append

theorem deref_block {b : Basis} {o : Obj} (hi : Inv b o) {d : ℕ} (h : d < o.blocks.length) : deref o (.block o.alloc d) = .ok (b.derivMatrixImpl d) := by
  simp only [deref, if_true, List.getElem?_eq_getElem h, hi.blocks d h]

/-- The maps of an object after a call that refers to other sizes. -/
theorem call_maps (b : Basis) {grow : ℕ → ℕ} (hg : Grows grow) {o : Obj} (hi : Inv b o) (q : Req) :
    (∀ n c k, (∀ tau, ¬ SameSizes (.cont n c k tau) q) → (call b grow o q).1.cont (n, c, k) = o.cont (n, c, k)) ∧
    (∀ n c k, (∀ tau, ¬ SameSizes (.dmat n c k tau) q) → (call b grow o q).1.dmat (n, c, k) = o.dmat (n, c, k)) := by
  have hf := fill_spec b hg hi.cap (derivOrder q)
  cases q with
  | block d => exact ⟨fun n c k _ => congrFun hf.cont _, fun n c k _ => congrFun hf.dmat _⟩
  | cont n' c' k' tau' =>
    refine ⟨fun n c k h => ?_, fun n c k _ => ?_⟩
    · refine (cont_frame b n' c' k' tau' o.cont).1 _ (.inl fun e => h [] ?_)
      cases e; exact ⟨rfl, rfl, rfl⟩
    · simp only [call]
      split_ifs
      · rfl
      · exact congrFun hf.dmat _
  | dmat n' c' k' tau' =>
    refine ⟨fun n c k _ => ?_, fun n c k h => ?_⟩
    · simp only [call]
      split_ifs
      · rfl
      · exact congrFun hf.cont _
    · refine (dmat_frame b n' c' k' tau' o.dmat).1 _ fun e => h [] ?_
      cases e; exact ⟨rfl, rfl, rfl⟩

end GSplines.Refs
