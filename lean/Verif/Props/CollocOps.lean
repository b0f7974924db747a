import Verif.Props.Colloc

/-!
# C48: arithmetic of collocation splines
-/

namespace GSplines.Props

open GSplines Spec Finset

theorem index_split {d n i : ℕ} (hi : i < d * n) : ∃ iv < n, ∃ k < d, i = iv * d + k := by
  have hd : 0 < d := by
    rcases Nat.eq_zero_or_pos d with h | h
    · subst h; omega
    · exact h
  refine ⟨i / d, ?_, i % d, Nat.mod_lt _ hd, ?_⟩
  · rw [Nat.div_lt_iff_lt_mul hd, Nat.mul_comm]; exact hi
  · rw [Nat.mul_comm]; exact (Nat.div_add_mod i d).symm

/-- The common part of the operations that replace every nodal value. -/
theorem map_ok {g : GSpline} (hc : Consistent g) (rv : Bool) (F : ℕ → ℕ → ℕ → ℝ → Res ℝ) (B : ℕ → ℕ → ℕ → ℝ)
    (hF : ∀ iv < g.tau.length, ∀ c < g.codim, ∀ k < g.basis.dim, F iv k c (nodal g iv c k) = .ok (B iv c k)) :
    ∃ co, (if rv then (Except.ok g >>= fun r => Colloc.mapBlocks r F) else (g.copy >>= fun r => Colloc.mapBlocks r F)) = .ok { g with coeffs := co } ∧ Consistent { g with coeffs := co } ∧
      ∀ iv < g.tau.length, ∀ c < g.codim, ∀ k < g.basis.dim, nodal { g with coeffs := co } iv c k = B iv c k := by
  obtain ⟨co, h1, h2, h3⟩ := Colloc.mapBlocks_ok hc F B hF
  refine ⟨co, ?_, ?_, h3⟩
  · rw [GSpline.copy_ok hc, ite_self, GLL.ok_bind, h1]
  · unfold Consistent; dsimp only; rw [h2]; exact hc

theorem valueAt_index {g : GSpline} (hc : Consistent g) {i : ℕ} (hi : i < g.basis.dim * g.tau.length) :
    Colloc.valueAt g i = .ok (nodalRow g (i / g.basis.dim) (i % g.basis.dim)) ∧ i / g.basis.dim < g.tau.length ∧ i % g.basis.dim < g.basis.dim := by
  obtain ⟨iv, hiv, k, hk, rfl⟩ := index_split hi
  obtain ⟨e1, e2⟩ := Colloc.node_div (iv := iv) hk
  rw [e1, e2]
  exact ⟨Colloc.valueAt_ok hc hiv hk, hiv, hk⟩

/-! ## Products -/

theorem closeBound_iff (x y : ℝ) : Tools.approxEqual x y tol9 = true ↔ CloseBound x y := by
  unfold Tools.approxEqual Tools.approxEqualS CloseBound tol9
  dsimp only
  by_cases h : |x| < 1 / 10 ^ 9 ∨ |y| < 1 / 10 ^ 9
  · rw [if_pos h]
    simp only [decide_eq_true_eq]
    refine ⟨fun h1 => .inl ⟨h, h1⟩, ?_⟩
    rintro (h1 | ⟨h1, h2, -⟩)
    · exact h1.2
    · rcases h with h | h <;> linarith
  · rw [if_neg h]
    simp only [decide_eq_true_eq]
    have h' := h
    push Not at h'
    exact ⟨fun h1 => .inr ⟨h'.1, h'.2, h1.1, h1.2⟩, fun h1 => h1.elim (fun h2 => absurd h2.1 h) fun h2 => ⟨h2.2.2.1, h2.2.2.2⟩⟩

theorem closeBound_refl (x : ℝ) : CloseBound x x := by
  unfold CloseBound
  by_cases h : |x| < 1 / 10 ^ 9
  · exact .inl ⟨.inl h, by norm_num⟩
  · push Not at h
    have : (0 : ℝ) < |x| := lt_of_lt_of_le (by norm_num) h
    exact .inr ⟨h, h, by rw [sub_self, abs_zero]; positivity, by rw [sub_self, abs_zero]; positivity⟩

open Classical in
/-- **C48**, product, for the four overloads: `std::invalid_argument` exactly if the numbers of nodes or intervals differ, a bound of the domains differs
(relative to its size, `CloseBound`), or both operands have several components. Otherwise at every node the vector of the result is the one of the operand with several components (of the
object if both are scalar) times the scalar at the same node, and the result has the other data of that operand. -/
theorem C48_product (ra rb : Bool) (a b : GSpline) (ha : Consistent a) (hb : Consistent b) :
    (Colloc.mul ra rb a b = .error .invalidArgument ↔
      ¬ (a.basis.dim = b.basis.dim ∧ a.tau.length = b.tau.length ∧ CloseBound a.dom.1 b.dom.1 ∧ CloseBound a.dom.2 b.dom.2 ∧ (a.codim = 1 ∨ b.codim = 1))) ∧
    ((a.basis.dim = b.basis.dim ∧ a.tau.length = b.tau.length ∧ CloseBound a.dom.1 b.dom.1 ∧ CloseBound a.dom.2 b.dom.2 ∧ (a.codim = 1 ∨ b.codim = 1)) →
      ∃ r, Colloc.mul ra rb a b = .ok r ∧ Consistent r ∧
        (∃ co, r = { (if b.codim = 1 then a else b) with coeffs := co }) ∧
        ∀ i < a.basis.dim * a.tau.length, ∃ va vb, Colloc.valueAt a i = .ok va ∧ Colloc.valueAt b i = .ok vb ∧
          Colloc.valueAt r i = .ok (if b.codim = 1 then va.map (· * vb.headD 0) else vb.map (· * va.headD 0))) := by
  have good : (a.basis.dim = b.basis.dim ∧ a.tau.length = b.tau.length ∧ CloseBound a.dom.1 b.dom.1 ∧ CloseBound a.dom.2 b.dom.2 ∧ (a.codim = 1 ∨ b.codim = 1)) →
      ∃ r, Colloc.mul ra rb a b = .ok r ∧ Consistent r ∧
        (∃ co, r = { (if b.codim = 1 then a else b) with coeffs := co }) ∧
        ∀ i < a.basis.dim * a.tau.length, ∃ va vb, Colloc.valueAt a i = .ok va ∧ Colloc.valueAt b i = .ok vb ∧
          Colloc.valueAt r i = .ok (if b.codim = 1 then va.map (· * vb.headD 0) else vb.map (· * va.headD 0)) := by
    rintro ⟨h1, h2, h3, h4, h5⟩
    unfold Colloc.mul
    rw [if_neg (not_not.mpr ⟨h1, h2⟩), if_neg (not_not.mpr ⟨(closeBound_iff _ _).mpr h4, (closeBound_iff _ _).mpr h3⟩), if_neg (not_not.mpr h5)]
    by_cases hb1 : b.codim = 1
    · simp only [hb1, if_true, ne_eq, not_true_eq_false, if_false, Nat.mul_one]
      obtain ⟨co, e1, e2, e3⟩ := map_ok ha ra (fun iv k _ x => do
          let s ← rd b.coeffs (iv * b.basis.dim + k)
          return x * s) (fun iv c k => nodal a iv c k * nodal b iv 0 k) (fun iv hiv c hc k hk => by
        have := GSpline.coef_bound hb (i := iv) (c := 0) (by omega) (by omega)
        rw [hb1] at this
        rw [rd_ok (by rw [← h1] at *; omega), GLL.ok_bind]
        unfold nodal
        rw [hb1]; simp; rfl)
      refine ⟨_, e1, e2, ⟨co, rfl⟩, fun i hi => ?_⟩
      obtain ⟨f1, f2, f3⟩ := valueAt_index ha hi
      obtain ⟨f4, -, -⟩ := valueAt_index hb (i := i) (by rw [← h1, ← h2]; exact hi)
      obtain ⟨f5, -, -⟩ := valueAt_index e2 (i := i) hi
      refine ⟨_, _, f1, f4, ?_⟩
      rw [f5]
      congr 1
      unfold nodalRow
      rw [List.map_map, hb1]
      refine List.map_congr_left fun c hc => ?_
      rw [e3 _ f2 c (by simpa using hc) _ f3]
      simp [h1]
    · have ha1 : a.codim = 1 := by tauto
      simp only [hb1, ne_eq, if_true, if_false, not_false_eq_true, ha1, Nat.mul_one]
      obtain ⟨co, e1, e2, e3⟩ := map_ok hb rb (fun iv k _ x => do
          let s ← rd a.coeffs (iv * a.basis.dim + k)
          return x * s) (fun iv c k => nodal b iv c k * nodal a iv 0 k) (fun iv hiv c hc k hk => by
        have := GSpline.coef_bound ha (i := iv) (c := 0) (by omega) (by omega)
        rw [ha1] at this
        rw [rd_ok (by rw [h1] at *; omega), GLL.ok_bind]
        unfold nodal
        rw [ha1]; simp; rfl)
      refine ⟨_, e1, e2, ⟨co, rfl⟩, fun i hi => ?_⟩
      obtain ⟨f1, -, -⟩ := valueAt_index ha hi
      obtain ⟨f4, f2, f3⟩ := valueAt_index hb (i := i) (by rw [← h1, ← h2]; exact hi)
      obtain ⟨f5, -, -⟩ := valueAt_index e2 (i := i) (by dsimp only; rw [← h1, ← h2]; exact hi)
      refine ⟨_, _, f1, f4, ?_⟩
      rw [f5]
      congr 1
      unfold nodalRow
      rw [List.map_map, ha1]
      refine List.map_congr_left fun c hc => ?_
      rw [e3 _ f2 c (by simpa using hc) _ f3]
      simp [h1]
  refine ⟨⟨fun h hcon => ?_, fun h => ?_⟩, good⟩
  · obtain ⟨r, hr, -⟩ := good hcon
    rw [hr] at h; cases h
  · unfold Colloc.mul
    by_cases h1 : Colloc.sameDisc a b
    · rw [if_neg (not_not.mpr h1)]
      by_cases h2 : Colloc.sameDomain a b
      · rw [if_neg (not_not.mpr h2)]
        by_cases h3 : a.codim = 1 ∨ b.codim = 1
        · exact absurd ⟨h1.1, h1.2, (closeBound_iff _ _).mp h2.2, (closeBound_iff _ _).mp h2.1, h3⟩ h
        · rw [if_pos h3]
      · rw [if_pos h2]
    · rw [if_pos h1]

/-- **C48**, product as functions: if moreover both operands have the same nodes and the same interval lengths, then at the time of every node the value of the
result is the product of the values of the operands. -/
theorem C48_product_values (ra rb : Bool) (a b r : GSpline) (n : ℕ) (p : Vec) (hn : Nodes n p) (hab : a.basis = .lagrange ((List.range n).map p))
    (hbb : b.basis = .lagrange ((List.range n).map p)) (ha : Consistent a) (hb : Consistent b) (hpos : Positive a) (ht : a.tau = b.tau) (hd : a.dom.1 = b.dom.1)
    (hr : Colloc.mul ra rb a b = .ok r) (iv k : ℕ) (hiv : iv < a.tau.length) (hk : k < n) (h0 : iv = 0 ∨ 0 < k) :
    ∃ va vb, a.value (nodeTime a p iv k) = .ok va ∧ b.value (nodeTime a p iv k) = .ok vb ∧
      r.value (nodeTime a p iv k) = .ok (if b.codim = 1 then va.map (· * vb.headD 0) else vb.map (· * va.headD 0)) := by
  obtain ⟨e1, e2⟩ := C48_product ra rb a b ha hb
  have hcond : a.basis.dim = b.basis.dim ∧ a.tau.length = b.tau.length ∧ CloseBound a.dom.1 b.dom.1 ∧ CloseBound a.dom.2 b.dom.2 ∧ (a.codim = 1 ∨ b.codim = 1) := by
    by_contra h
    rw [e1.mpr h] at hr; cases hr
  obtain ⟨r', hr', hrc, ⟨co, hco⟩, hv⟩ := e2 hcond
  rw [hr] at hr'
  injection hr' with hr'
  subst hr'
  have hposb : Positive b := by unfold Positive; rw [← ht]; exact hpos
  have hrt : r.tau = a.tau ∧ r.dom.1 = a.dom.1 ∧ r.basis = .lagrange ((List.range n).map p) := by
    rw [hco]
    by_cases hb1 : b.codim = 1
    · simp [hb1, hab]
    · simp [hb1, hbb, ht, hd]
  have htime : ∀ g : GSpline, g.tau = a.tau → g.dom.1 = a.dom.1 → nodeTime g p iv k = nodeTime a p iv k := by
    intro g h1 h2
    unfold nodeTime brk
    rw [h1, h2]
  have hposr : Positive r := by unfold Positive; rw [hrt.1]; exact hpos
  obtain ⟨va, a1, -, a2, -⟩ := C47_value_at a n p hab hn ha hpos iv k hiv hk
  obtain ⟨vb, b1, -, b2, -⟩ := C47_value_at b n p hbb hn hb hposb iv k (by rw [← ht]; exact hiv) hk
  obtain ⟨vr, r1, -, r2, -⟩ := C47_value_at r n p hrt.2.2 hn hrc hposr iv k (by rw [hrt.1]; exact hiv) hk
  have hdim : a.basis.dim = n := by rw [hab]; simp [Basis.dim]
  obtain ⟨va', vb', c1, c2, c3⟩ := hv (iv * n + k) (by
    rw [hdim, Nat.mul_comm iv]; exact Colloc.col_lt hiv hk)
  rw [a1] at c1; rw [b1] at c2; rw [r1] at c3
  injection c1 with c1
  injection c2 with c2
  injection c3 with c3
  subst c1 c2
  refine ⟨va, vb, a2 h0, ?_, ?_⟩
  · rw [← htime b ht.symm hd.symm]; exact b2 h0
  · rw [← htime r hrt.1 hrt.2.1, r2 h0, c3]

/-! ## Scalar operations -/

/-- **C48**, product with a number, for all overloads: never throws on a spline that can be constructed, and every nodal value is multiplied. -/
theorem C48_scalar (rv : Bool) (x : ℝ) (g : GSpline) (hc : Consistent g) :
    ∃ r, Colloc.smul rv x g = .ok r ∧ Consistent r ∧ (∃ co, r = { g with coeffs := co }) ∧
      ∀ i < g.basis.dim * g.tau.length, ∃ v, Colloc.valueAt g i = .ok v ∧ Colloc.valueAt r i = .ok (v.map (x * ·)) := by
  have hcon : Consistent { g with coeffs := g.coeffs.map (· * x) } := by show (g.coeffs.map _).length = _; rw [List.length_map]; exact hc
  refine ⟨{ g with coeffs := g.coeffs.map (· * x) }, ?_, hcon, ⟨_, rfl⟩, fun i hi => ?_⟩
  · unfold Colloc.smul
    rw [GSpline.copy_ok hc, ite_self]; rfl
  · obtain ⟨f1, f2, f3⟩ := valueAt_index hc hi
    obtain ⟨f4, -, -⟩ := valueAt_index hcon (i := i) hi
    refine ⟨_, f1, ?_⟩
    rw [f4]
    congr 1
    unfold nodalRow
    rw [List.map_map]
    refine List.map_congr_left fun c hcc => ?_
    rw [List.mem_range] at hcc
    unfold nodal
    dsimp only [Function.comp]
    rw [vecOf_map, mul_comm]
    have := GSpline.coef_bound hc f2 hcc
    omega

/-- **C48**, unary minus. -/
theorem C48_neg (rv : Bool) (g : GSpline) (hc : Consistent g) :
    ∃ r, Colloc.neg rv g = .ok r ∧ Consistent r ∧ (∃ co, r = { g with coeffs := co }) ∧
      ∀ i < g.basis.dim * g.tau.length, ∃ v, Colloc.valueAt g i = .ok v ∧ Colloc.valueAt r i = .ok (v.map (- ·)) := by
  obtain ⟨r, h1, h2, h3, h4⟩ := C48_scalar rv (-1) g hc
  refine ⟨r, h1, h2, h3, fun i hi => ?_⟩
  obtain ⟨v, e1, e2⟩ := h4 i hi
  refine ⟨v, e1, ?_⟩
  rw [e2]; simp

/-- The common part of the operations with a constant vector. -/
theorem vec_op (rv : Bool) (g : GSpline) (hc : Consistent g) (v : List ℝ) (hv : v.length = g.codim) (op : ℝ → ℝ → ℝ) :
    ∃ r, (if rv then (Except.ok g >>= fun r => Colloc.mapBlocks r fun _ _ c x => .ok (op x (vecOf v c))) else (g.copy >>= fun r => Colloc.mapBlocks r fun _ _ c x => .ok (op x (vecOf v c)))) = .ok r ∧ Consistent r ∧
      (∃ co, r = { g with coeffs := co }) ∧
      ∀ i < g.basis.dim * g.tau.length, ∃ u, Colloc.valueAt g i = .ok u ∧ Colloc.valueAt r i = .ok (List.zipWith op u v) := by
  obtain ⟨co, e1, e2, e3⟩ := map_ok hc rv (fun _ _ c x => .ok (op x (vecOf v c))) (fun iv c k => op (nodal g iv c k) (vecOf v c)) (fun _ _ _ _ _ _ => rfl)
  refine ⟨_, e1, e2, ⟨co, rfl⟩, fun i hi => ?_⟩
  obtain ⟨f1, f2, f3⟩ := valueAt_index hc hi
  obtain ⟨f4, -, -⟩ := valueAt_index e2 (i := i) hi
  refine ⟨_, f1, ?_⟩
  rw [f4]
  congr 1
  unfold nodalRow
  refine List.ext_getElem (by simp [hv]) fun c h1 h2 => ?_
  simp only [List.length_map, List.length_range] at h1
  simp only [List.getElem_map, List.getElem_range, List.getElem_zipWith]
  rw [e3 _ f2 c h1 _ f3]
  congr 1
  simp [vecOf, hv, h1]

/-- **C48**, sum with a vector (`v + g` and `g + v`, all overloads): `std::invalid_argument` exactly if the sizes differ; otherwise the vector is added at
every node. -/
theorem C48_add_vector (rv : Bool) (v : List ℝ) (g : GSpline) (hc : Consistent g) :
    (v.length ≠ g.codim → Colloc.addVec rv v g = .error .invalidArgument) ∧
    (v.length = g.codim → ∃ r, Colloc.addVec rv v g = .ok r ∧ Consistent r ∧ (∃ co, r = { g with coeffs := co }) ∧
      ∀ i < g.basis.dim * g.tau.length, ∃ u, Colloc.valueAt g i = .ok u ∧ Colloc.valueAt r i = .ok (List.zipWith (· + ·) u v)) := by
  refine ⟨fun h => if_pos h, fun h => ?_⟩
  unfold Colloc.addVec
  rw [if_neg (not_not.mpr h)]
  exact vec_op rv g hc v h (· + ·)

/-- **C48**, `v - g`. -/
theorem C48_vector_sub (rv : Bool) (v : List ℝ) (g : GSpline) (hc : Consistent g) :
    (v.length ≠ g.codim → Colloc.vecSub rv v g = .error .invalidArgument) ∧
    (v.length = g.codim → ∃ r, Colloc.vecSub rv v g = .ok r ∧ Consistent r ∧ (∃ co, r = { g with coeffs := co }) ∧
      ∀ i < g.basis.dim * g.tau.length, ∃ u, Colloc.valueAt g i = .ok u ∧ Colloc.valueAt r i = .ok (List.zipWith (fun x y => y - x) u v)) := by
  refine ⟨fun h => if_pos h, fun h => ?_⟩
  unfold Colloc.vecSub
  rw [if_neg (not_not.mpr h)]
  have := vec_op rv g hc v h (fun x y => y - x)
  simp only [neg_add_eq_sub]
  exact this

/-- **C48**, `g - v`. -/
theorem C48_sub_vector (rv : Bool) (g : GSpline) (v : List ℝ) (hc : Consistent g) :
    (v.length ≠ g.codim → Colloc.subVec rv g v = .error .invalidArgument) ∧
    (v.length = g.codim → ∃ r, Colloc.subVec rv g v = .ok r ∧ Consistent r ∧ (∃ co, r = { g with coeffs := co }) ∧
      ∀ i < g.basis.dim * g.tau.length, ∃ u, Colloc.valueAt g i = .ok u ∧ Colloc.valueAt r i = .ok (List.zipWith (· - ·) u v)) := by
  refine ⟨fun h => if_pos h, fun h => ?_⟩
  unfold Colloc.subVec
  rw [if_neg (not_not.mpr h)]
  exact vec_op rv g hc v h (· - ·)

/-- **C48**, `x / g`: `std::invalid_argument` exactly if the spline has not one component; if no nodal value is zero, the quotient at every node. -/
theorem C48_divide (rv : Bool) (x : ℝ) (g : GSpline) (hc : Consistent g) :
    (g.codim ≠ 1 → Colloc.divBy rv x g = .error .invalidArgument) ∧
    (g.codim = 1 → (∀ z ∈ g.coeffs, z ≠ 0) → ∃ r, Colloc.divBy rv x g = .ok r ∧ Consistent r ∧ (∃ co, r = { g with coeffs := co }) ∧
      ∀ i < g.basis.dim * g.tau.length, ∃ u, Colloc.valueAt g i = .ok [u] ∧ Colloc.valueAt r i = .ok [x / u]) := by
  refine ⟨fun h => if_pos h, fun h hz => ?_⟩
  unfold Colloc.divBy
  rw [if_neg (not_not.mpr h)]
  have hnz : ∀ iv < g.tau.length, ∀ c < g.codim, ∀ k < g.basis.dim, nodal g iv c k ≠ 0 := by
    intro iv hiv c hcc k hk
    have hb := GSpline.coef_bound hc hiv hcc
    unfold nodal vecOf
    rw [List.getD_eq_getElem?_getD, List.getElem?_eq_getElem (by omega)]
    exact hz _ (List.getElem_mem _)
  obtain ⟨co, e1, e2, e3⟩ := map_ok hc rv (fun _ _ _ z => open Classical in if z = 0 then .error .notFinite else .ok (x / z))
    (fun iv c k => x / nodal g iv c k) (fun iv hiv c hcc k hk => if_neg (hnz iv hiv c hcc k hk))
  refine ⟨_, e1, e2, ⟨co, rfl⟩, fun i hi => ?_⟩
  obtain ⟨f1, f2, f3⟩ := valueAt_index hc hi
  obtain ⟨f4, -, -⟩ := valueAt_index e2 (i := i) hi
  refine ⟨nodal g (i / g.basis.dim) 0 (i % g.basis.dim), ?_, ?_⟩
  · rw [f1]; unfold nodalRow; rw [h]; rfl
  · rw [f4]; unfold nodalRow; dsimp only
    rw [show List.range g.codim = [0] by rw [h]; rfl]
    simp only [List.map_cons, List.map_nil]
    rw [e3 _ f2 0 (by omega) _ f3]

/-- **C48**, `pow`: `std::invalid_argument` exactly if the spline has not one component; otherwise, if no power is infinite or not a number, the power at every
node. -/
theorem C48_pow (rv : Bool) (g : GSpline) (e : ℝ) (hc : Consistent g) :
    (g.codim ≠ 1 → Colloc.pow rv g e = .error .invalidArgument) ∧
    (g.codim = 1 → (∀ z ∈ g.coeffs, 0 < z ∨ (z = 0 ∧ 0 ≤ e) ∨ ∃ m : ℤ, z ≠ 0 ∧ e = m) → ∃ r, Colloc.pow rv g e = .ok r ∧ Consistent r ∧ (∃ co, r = { g with coeffs := co }) ∧
      ∀ i < g.basis.dim * g.tau.length, ∃ u, Colloc.valueAt g i = .ok [u] ∧ Colloc.valueAt r i = .ok [u ^ e]) := by
  refine ⟨fun h => if_pos h, fun h hz => ?_⟩
  have hm : g.coeffs.mapM (fun z => Colloc.stdPow z e) = .ok (g.coeffs.map (· ^ e)) := by
    refine mapM_ok _ fun z hzm => ?_
    unfold Colloc.stdPow
    rw [if_neg]
    rintro (⟨h1, h2⟩ | ⟨h1, h2⟩)
    · rcases hz z hzm with h3 | h3 | ⟨m, -, h3⟩
      · linarith
      · linarith [h3.1]
      · exact h2 ⟨m, h3⟩
    · rcases hz z hzm with h3 | h3 | ⟨m, h3, -⟩
      · linarith
      · linarith [h3.2]
      · exact h3 h1
  have hcon : Consistent { g with coeffs := g.coeffs.map (· ^ e) } := by show (g.coeffs.map _).length = _; rw [List.length_map]; exact hc
  refine ⟨{ g with coeffs := g.coeffs.map (· ^ e) }, ?_, hcon, ⟨_, rfl⟩, fun i hi => ?_⟩
  · unfold Colloc.pow
    rw [if_neg (not_not.mpr h), GSpline.copy_ok hc, ite_self, GLL.ok_bind, hm]; rfl
  · obtain ⟨f1, f2, f3⟩ := valueAt_index hc hi
    obtain ⟨f4, -, -⟩ := valueAt_index hcon (i := i) hi
    refine ⟨nodal g (i / g.basis.dim) 0 (i % g.basis.dim), ?_, ?_⟩
    · rw [f1]; unfold nodalRow; rw [h]; rfl
    · rw [f4]; unfold nodalRow; dsimp only
      rw [show List.range g.codim = [0] by rw [h]; rfl]
      simp only [List.map_cons, List.map_nil]
      unfold nodal
      dsimp only
      rw [vecOf_map]
      have := GSpline.coef_bound hc f2 (c := 0) (by omega)
      omega

/-- **C48**, `norm`: the Euclidean norm of the vector at every node, on the same domain and intervals. -/
theorem C48_norm (g : GSpline) (jp jw junk p w : Vec) (hpw : GLL.pointsWeights g.basis.dim jp jw = .ok (p, w)) (hd : g.dom.1 ≤ g.dom.2) (hc : Consistent g) :
    ∃ r, Colloc.norm g jp jw junk = .ok r ∧ Consistent r ∧ r.dom = g.dom ∧ r.tau = g.tau ∧ r.codim = 1 ∧ r.basis = .lagrange ((List.range g.basis.dim).map p) ∧
      ∀ i < g.basis.dim * g.tau.length, ∃ u, Colloc.valueAt g i = .ok u ∧ Colloc.valueAt r i = .ok [√((u.map (· ^ 2)).sum)] := by
  set co : Vec := GLL.segments g.basis.dim g.nIntervals
      (fun iv k => √(∑ c ∈ Finset.range g.codim, vecOf g.coeffs (iv * (g.basis.dim * g.codim) + c * g.basis.dim + k) ^ 2)) junk with hco
  have hdim : (Basis.lagrange ((List.range g.basis.dim).map p)).dim = g.basis.dim := by simp [Basis.dim]
  have hcon : Consistent ⟨g.dom, 1, .lagrange ((List.range g.basis.dim).map p), (List.range (g.basis.dim * g.nIntervals)).map co, g.tau⟩ := by
    unfold Consistent
    rw [hdim]; simp; ring
  refine ⟨⟨g.dom, 1, .lagrange ((List.range g.basis.dim).map p), (List.range (g.basis.dim * g.nIntervals)).map co, g.tau⟩, ?_, hcon, rfl, rfl, rfl, rfl, fun i hi => ?_⟩
  · unfold Colloc.norm Colloc.mk Colloc.glBasis
    have : ¬ g.coeffs.length < g.nIntervals * (g.basis.dim * g.codim) := by
      have h : g.coeffs.length = g.nIntervals * g.basis.dim * g.codim := hc
      rw [h, Nat.mul_assoc]; omega
    rw [if_neg this, hpw]
    exact GSpline.make_ok hd hcon
  · obtain ⟨f1, f2, f3⟩ := valueAt_index hc hi
    obtain ⟨f4, -, -⟩ := valueAt_index hcon (i := i) (by rw [hdim]; exact hi)
    refine ⟨_, f1, ?_⟩
    rw [f4]
    congr 1
    unfold nodalRow
    simp only [List.range_one, List.map_cons, List.map_nil]
    congr 1
    unfold nodal
    dsimp only
    rw [hdim]
    rw [show i / g.basis.dim * g.basis.dim * 1 + g.basis.dim * 0 + i % g.basis.dim = i by
      rw [Nat.mul_one, Nat.mul_zero, Nat.add_zero, Nat.mul_comm]; exact Nat.div_add_mod i g.basis.dim]
    rw [vecOf_map_range hi]
    have hs := GLL.segments_spec g.basis.dim g.nIntervals
      (fun iv k => √(∑ c ∈ Finset.range g.codim, vecOf g.coeffs (iv * (g.basis.dim * g.codim) + c * g.basis.dim + k) ^ 2)) junk f2 f3
    rw [← hco, show i / g.basis.dim * g.basis.dim + i % g.basis.dim = i by rw [Nat.mul_comm]; exact Nat.div_add_mod i g.basis.dim] at hs
    rw [hs, List.map_map, ← list_sum_range]
    congr 1
    refine congrArg _ (List.map_congr_left fun c _ => ?_)
    dsimp only [Function.comp]
    rw [Nat.mul_assoc, Nat.mul_comm c]

/-! ## Sums -/

/-- **C48**, sums and differences of splines, for all overloads and compound assignments: `std::invalid_argument` exactly if the splines are not in the same vector
space (see `C15_same_vector_space_sound`), otherwise sum or difference at every node. Missing: the domains are not compared
(`C48_sum_domain_false`). -/
theorem C48_sum_partial (op : BinOp) (a b : GSpline) (ha : Consistent a) (hb : Consistent b) :
    (a.sameVectorSpace b = false → op.run a b = .error .invalidArgument) ∧
    (a.sameVectorSpace b = true → ∃ r, op.run a b = .ok r ∧ Consistent r ∧
      ∀ i < a.basis.dim * a.tau.length, ∃ va vb, Colloc.valueAt a i = .ok va ∧ Colloc.valueAt b i = .ok vb ∧ Colloc.valueAt r i = .ok (List.zipWith op.num va vb)) := by
  refine ⟨C15_incompatible op a b, fun h => ?_⟩
  obtain ⟨-, s1, s2, s3, -⟩ := C15_same_vector_space_sound a b h
  have hl := consistent_length ha hb h
  have hcomm : List.zipWith (· + ·) b.coeffs a.coeffs = List.zipWith (fun x y : ℝ => x + y) a.coeffs b.coeffs := by
    rw [List.zipWith_comm]; congr 1; funext x y; ring
  have hrun : ∃ g, (g = a ∨ g = b) ∧ op.run a b = .ok { g with coeffs := List.zipWith op.num a.coeffs b.coeffs } := by
    cases op
    case addToThat => exact ⟨b, .inr rfl, by simp [BinOp.run, BinOp.num, GSpline.addToThat, h, zipRes, hl, bind, Except.bind, pure, Except.pure, hcomm]⟩
    case subToThat => exact ⟨b, .inr rfl, by simp [BinOp.run, BinOp.num, GSpline.subToThat, h, zipRes, hl, bind, Except.bind, pure, Except.pure]⟩
    all_goals exact ⟨a, .inl rfl, by simp [BinOp.run, BinOp.num, GSpline.add, GSpline.addInPlace, GSpline.sub, GSpline.subInPlace, h,
      GSpline.copy_ok ha, zipRes, hl, bind, Except.bind, pure, Except.pure]⟩
  obtain ⟨g, hg, hr⟩ := hrun
  have hgl : g.basis.dim = a.basis.dim ∧ g.codim = a.codim ∧ g.tau.length = a.tau.length := by
    rcases hg with rfl | rfl
    · exact ⟨rfl, rfl, rfl⟩
    · exact ⟨s1.symm, s2.symm, s3.symm⟩
  have hcr : Consistent { g with coeffs := List.zipWith op.num a.coeffs b.coeffs } := by
    unfold Consistent
    dsimp only
    rw [hgl.1, hgl.2.1, hgl.2.2, List.length_zipWith, ← hl, min_self]
    exact ha
  refine ⟨_, hr, hcr, fun i hi => ?_⟩
  obtain ⟨f1, f2, f3⟩ := valueAt_index ha hi
  obtain ⟨f4, -, -⟩ := valueAt_index hb (i := i) (by rw [← s1, ← s3]; exact hi)
  obtain ⟨f5, -, -⟩ := valueAt_index hcr (i := i) (by dsimp only; rw [hgl.1, hgl.2.2]; exact hi)
  refine ⟨_, _, f1, f4, ?_⟩
  rw [f5]
  congr 1
  unfold nodalRow
  dsimp only
  rw [hgl.2.1, ← s2, List.zipWith_map, List.zipWith_self]
  refine List.map_congr_left fun c hcc => ?_
  rw [List.mem_range] at hcc
  unfold nodal
  dsimp only
  have := GSpline.coef_bound ha f2 hcc
  rw [hgl.1, vecOf_zipWith (by omega) (by omega), ← s1, ← s2]

/-- **C48 is false for sums:** two splines on different domains are added, the sum has the domain of one of them. -/
theorem C48_sum_domain_false : ∃ a b r : GSpline, Consistent a ∧ Consistent b ∧ a.dom = (0, 1) ∧ b.dom = (5, 6) ∧ a.add b = .ok r := by
  refine ⟨⟨(0, 1), 1, .lagrange [-1, 1], [1, 2], [1]⟩, ⟨(5, 6), 1, .lagrange [-1, 1], [3, 4], [1]⟩, ⟨(0, 1), 1, .lagrange [-1, 1], [1 + 3, 2 + 4], [1]⟩, ?_, ?_, rfl, rfl, ?_⟩
  · simp [Consistent, Basis.dim]
  · simp [Consistent, Basis.dim]
  · unfold GSpline.add
    rw [if_pos (C15_same_vector_space_complete ⟨(0, 1), 1, .lagrange [-1, 1], [1, 2], [1]⟩ ⟨(5, 6), 1, .lagrange [-1, 1], [3, 4], [1]⟩ rfl rfl rfl), GSpline.copy_ok (by simp [Consistent, Basis.dim])]
    rfl

theorem two_nodes : Nodes 2 (vecOf [-1, 1]) where
  two := le_rfl
  first := rfl
  last := rfl
  sep := by
    intro i hi j hj e
    interval_cases i <;> interval_cases j <;> first | rfl | (revert e; norm_num [Lagrange.almostEqual, tol9, vecOf])
  mem := by intro k hk; interval_cases k <;> norm_num [vecOf]

theorem two_basis : (Basis.lagrange [-1, 1]) = .lagrange ((List.range 2).map (vecOf [-1, 1])) := by simp [List.range_succ, vecOf]

/-- **C48 is false for products as functions:** two splines on the same domain with the same nodes and other interval lengths are multiplied node by node,
although the nodes are at different times. -/
theorem C48_product_lengths_false : ∃ a b r : GSpline, Consistent a ∧ Consistent b ∧ Positive a ∧ Positive b ∧ a.dom = b.dom ∧ a.basis = b.basis ∧
    Colloc.mul false false a b = .ok r ∧ a.value 2 = .ok [1] ∧ b.value 2 = .ok [1] ∧ r.value 2 = .ok [2] := by
  set a : GSpline := ⟨(0, 4), 1, .lagrange [-1, 1], [1, 1, 1, 1, 1, 1], [1, 1, 2]⟩ with ha
  set b : GSpline := ⟨(0, 4), 1, .lagrange [-1, 1], [0, 1, 1, 2, 2, 3], [2, 1, 1]⟩ with hb
  have hca : Consistent a := by simp [Consistent, Basis.dim, ha]
  have hcb : Consistent b := by simp [Consistent, Basis.dim, hb]
  have hpa : Positive a := ⟨by simp [ha], by simp [ha]⟩
  have hpb : Positive b := ⟨by simp [hb], by simp [hb]⟩
  obtain ⟨r, hr, hcr, ⟨co, hco⟩, hv⟩ := (C48_product false false a b hca hcb).2 ⟨rfl, rfl, closeBound_refl _, closeBound_refl _, .inl rfl⟩
  have hco' : r = { a with coeffs := co } := by rw [hco]; simp [hb]
  have hpr : Positive r := by rw [hco']; exact hpa
  have hbr : r.basis = .lagrange ((List.range 2).map (vecOf [-1, 1])) := by rw [hco', ← two_basis]
  obtain ⟨va, a1, -, a2, -⟩ := C47_value_at a 2 _ two_basis two_nodes hca hpa 1 1 (by simp [ha]) (by norm_num)
  obtain ⟨vb, b1, -, b2, -⟩ := C47_value_at b 2 _ two_basis two_nodes hcb hpb 0 1 (by simp [hb]) (by norm_num)
  obtain ⟨vr, r1, -, r2, -⟩ := C47_value_at r 2 _ hbr two_nodes hcr hpr 1 1 (by rw [hco']; simp [ha]) (by norm_num)
  have ea : Colloc.valueAt a (1 * 2 + 1) = .ok (nodalRow a 1 1) := Colloc.valueAt_ok (g := a) hca (iv := 1) (k := 1) (by simp [ha]) (by simp [ha, Basis.dim])
  have eb : Colloc.valueAt b (0 * 2 + 1) = .ok (nodalRow b 0 1) := Colloc.valueAt_ok (g := b) hcb (iv := 0) (k := 1) (by simp [hb]) (by simp [hb, Basis.dim])
  have eb' : Colloc.valueAt b (1 * 2 + 1) = .ok (nodalRow b 1 1) := Colloc.valueAt_ok (g := b) hcb (iv := 1) (k := 1) (by simp [hb]) (by simp [hb, Basis.dim])
  obtain ⟨va', vb', c1, c2, c3⟩ := hv (1 * 2 + 1) (by simp [ha, Basis.dim])
  rw [ea] at a1 c1
  rw [eb] at b1
  rw [eb'] at c2
  rw [c3] at r1
  injection a1 with a1
  injection b1 with b1
  injection c1 with c1
  injection c2 with c2
  injection r1 with r1
  have ta : nodeTime a (vecOf [-1, 1]) 1 1 = 2 := by norm_num [nodeTime, brk, ha, vecOf]
  have tb : nodeTime b (vecOf [-1, 1]) 0 1 = 2 := by norm_num [nodeTime, brk, hb, vecOf]
  have tr : nodeTime r (vecOf [-1, 1]) 1 1 = 2 := by rw [hco']; norm_num [nodeTime, brk, ha, vecOf]
  refine ⟨a, b, r, hca, hcb, hpa, hpb, rfl, rfl, hr, ?_, ?_, ?_⟩
  · have := a2 (.inr (by norm_num)); rw [ta] at this; rw [this, ← a1]; simp [nodalRow, nodal, ha, vecOf, Basis.dim]
  · have := b2 (.inl rfl); rw [tb] at this; rw [this, ← b1]; simp [nodalRow, nodal, hb, vecOf, Basis.dim]
  · have := r2 (.inr (by norm_num)); rw [tr] at this; rw [this, ← r1, ← c1, ← c2]
    simp [nodalRow, nodal, ha, hb, vecOf, Basis.dim]

/-! ## Examples -/

/-- A scalar and a vector spline on two intervals of two nodes. -/
noncomputable def exNodesA : GSpline := ⟨(0, 3), 1, .lagrange [-1, 1], [1, 2, 2, 5], [1, 2]⟩
noncomputable def exNodesB : GSpline := ⟨(0, 3), 2, .lagrange [-1, 1], [1, 3, 4, 7, 3, 0, 7, 8], [1, 2]⟩

theorem exNodesA_consistent : Consistent exNodesA := by simp [Consistent, Basis.dim, exNodesA]
theorem exNodesB_consistent : Consistent exNodesB := by simp [Consistent, Basis.dim, exNodesB]

/-- At time `1` the vector is `(3, 7)` and the scalar `2`. -/
example : ∃ r, Colloc.mul true false exNodesA exNodesB = .ok r ∧ r.value 1 = .ok [6, 14] := by
  obtain ⟨r, hr, -⟩ := (C48_product true false exNodesA exNodesB exNodesA_consistent exNodesB_consistent).2
    ⟨rfl, rfl, closeBound_refl _, closeBound_refl _, .inl rfl⟩
  have hpos : Positive exNodesA := ⟨by simp [exNodesA], by simp [exNodesA]⟩
  obtain ⟨va, vb, h1, h2, h3⟩ := C48_product_values true false exNodesA exNodesB r 2 _ two_nodes two_basis two_basis exNodesA_consistent exNodesB_consistent hpos rfl rfl hr
    0 1 (by simp [exNodesA]) (by norm_num) (.inl rfl)
  obtain ⟨va', a1, -, a2, -⟩ := C47_value_at exNodesA 2 _ two_basis two_nodes exNodesA_consistent hpos 0 1 (by simp [exNodesA]) (by norm_num)
  obtain ⟨vb', b1, -, b2, -⟩ := C47_value_at exNodesB 2 _ two_basis two_nodes exNodesB_consistent hpos 0 1 (by simp [exNodesB]) (by norm_num)
  have tb : nodeTime exNodesB (vecOf [-1, 1]) 0 1 = nodeTime exNodesA (vecOf [-1, 1]) 0 1 := rfl
  rw [a2 (.inl rfl)] at h1
  rw [← tb, b2 (.inl rfl)] at h2
  have ea : Colloc.valueAt exNodesA (0 * 2 + 1) = .ok (nodalRow exNodesA 0 1) :=
    Colloc.valueAt_ok exNodesA_consistent (iv := 0) (k := 1) (by simp [exNodesA]) (by simp [exNodesA, Basis.dim])
  have eb : Colloc.valueAt exNodesB (0 * 2 + 1) = .ok (nodalRow exNodesB 0 1) :=
    Colloc.valueAt_ok exNodesB_consistent (iv := 0) (k := 1) (by simp [exNodesB]) (by simp [exNodesB, Basis.dim])
  rw [a1] at ea
  rw [b1] at eb
  injection ea with ea
  injection eb with eb
  injection h1 with h1
  injection h2 with h2
  refine ⟨r, hr, ?_⟩
  have tt : nodeTime exNodesA (vecOf [-1, 1]) 0 1 = 1 := by norm_num [nodeTime, brk, exNodesA, vecOf]
  rw [tt] at h3
  rw [h3, ← h1, ← h2, ea, eb]
  norm_num [nodalRow, nodal, exNodesA, exNodesB, vecOf, Basis.dim, List.range_succ]

/-- Two components times two components, or other domains: `std::invalid_argument`. -/
example : Colloc.mul false true exNodesB exNodesB = .error .invalidArgument :=
  (C48_product _ _ _ _ exNodesB_consistent exNodesB_consistent).1.mpr fun h => by
    rcases h.2.2.2.2 with h | h <;> simp [exNodesB] at h

example : ∃ r, Colloc.pow false exNodesA 3 = .ok r ∧ Colloc.valueAt r 3 = .ok [125] := by
  obtain ⟨r, hr, -, -, hv⟩ := (C48_pow false exNodesA 3 exNodesA_consistent).2 rfl (fun z hz => .inl (by
    simp [exNodesA] at hz
    rcases hz with rfl | rfl | rfl <;> norm_num))
  obtain ⟨u, h1, h2⟩ := hv 3 (by simp [exNodesA, Basis.dim])
  have : Colloc.valueAt exNodesA (1 * 2 + 1) = .ok (nodalRow exNodesA 1 1) :=
    Colloc.valueAt_ok exNodesA_consistent (iv := 1) (k := 1) (by simp [exNodesA]) (by simp [exNodesA, Basis.dim])
  rw [show 1 * 2 + 1 = 3 by norm_num, h1] at this
  injection this with this
  have hu : u = 5 := by simpa [nodalRow, nodal, exNodesA, vecOf, Basis.dim] using this
  refine ⟨r, hr, ?_⟩
  rw [h2, hu]
  norm_num

example : ∃ r, Colloc.subVec true exNodesB [1, 2] = .ok r ∧ ∃ u, Colloc.valueAt exNodesB 3 = .ok u ∧ Colloc.valueAt r 3 = .ok (List.zipWith (· - ·) u [1, 2]) := by
  obtain ⟨r, hr, -, -, hv⟩ := (C48_sub_vector true exNodesB [1, 2] exNodesB_consistent).2 rfl
  exact ⟨r, hr, hv 3 (by simp [exNodesB, Basis.dim])⟩

example : ∃ r, Colloc.divBy true 10 exNodesA = .ok r ∧ ∃ u, Colloc.valueAt exNodesA 3 = .ok [u] ∧ Colloc.valueAt r 3 = .ok [10 / u] := by
  obtain ⟨r, hr, -, -, hv⟩ := (C48_divide true 10 exNodesA exNodesA_consistent).2 rfl (by simp [exNodesA])
  exact ⟨r, hr, hv 3 (by simp [exNodesA, Basis.dim])⟩

example (jp jw junk : Vec) : ∃ r, Colloc.norm exNodesB jp jw junk = .ok r ∧ ∃ u, Colloc.valueAt exNodesB 3 = .ok u ∧ Colloc.valueAt r 3 = .ok [√((u.map (· ^ 2)).sum)] := by
  obtain ⟨p, w, hpw, -⟩ := two_points jp jw
  obtain ⟨r, hr, -, -, -, -, -, hv⟩ := C48_norm exNodesB jp jw junk p w hpw (by norm_num [exNodesB]) exNodesB_consistent
  exact ⟨r, hr, hv 3 (by simp [exNodesB, Basis.dim])⟩

end GSplines.Props
