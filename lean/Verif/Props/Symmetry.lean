import Verif.Proofs.Symmetry
import Verif.Props.GSpline

/-!
# Symmetries of interpolation (C73)
-/

namespace GSplines.Props

open GSplines Spec Interp Symmetry Finset

/-- **C73** (nothing but the arguments matters). The result does not depend on the linear solver, on the previous contents of memory, or on entries outside the
table of way points. -/
theorem C73_determined (lu lu' : LU) (hlu : LUContract lu) (hlu' : LUContract lu') (junk junk' : Vec) (b : Basis) (hb : Interpolable b) (tau : List ℝ) (hne : tau ≠ [])
    (ht : ∀ t ∈ tau, 1 / 10 ^ 6 ≤ t) (w w' : Pts) (hw : w.rows = tau.length + 1) (hr : w'.rows = w.rows) (hc : w'.cols = w.cols)
    (hsame : ∀ i < w.rows, ∀ c < w.cols, w'.at' i c = w.at' i c) :
    interpolateFn lu junk tau w b = interpolateFn lu' junk' tau w' b := by
  obtain ⟨g, hg⟩ := interpolate_ok hlu junk hb hne ht hw
  obtain ⟨g', hg'⟩ := interpolate_ok hlu' junk' hb hne ht (hr.trans hw)
  obtain ⟨G, g1, g2, g3⟩ := good_of hlu hb hne ht hw hg
  obtain ⟨G', g1', g2', g3'⟩ := good_of hlu' hb hne ht (hr.trans hw) hg'
  have G'' : Good g' w.at' := G'.congr fun i hi c hcc => hsame i (by rw [g1'] at hi; omega) c (by rw [g2', hc] at hcc; exact hcc)
  rw [hg, hg', good_unique G G'' (by rw [g1, g1']) (by rw [g2, g2', hc]) (by rw [g3, g3'])]

/-- **C73** (affine maps). If every way point is moved by the same affine map, the whole curve is moved by that map. In particular the components do not
influence each other, and coordinates may be translated, rotated, permuted, dropped and rescaled before or after interpolating. -/
theorem C73_affine (lu lu' : LU) (hlu : LUContract lu) (hlu' : LUContract lu') (junk junk' : Vec) (b : Basis) (hb : Interpolable b) (tau : List ℝ) (hne : tau ≠ [])
    (ht : ∀ t ∈ tau, 1 / 10 ^ 6 ≤ t) (w w' : Pts) (hw : w.rows = tau.length + 1) (hw' : w'.rows = tau.length + 1) (A : ℕ → ℕ → ℝ) (v : ℕ → ℝ)
    (hA : ∀ i ≤ tau.length, ∀ c < w'.cols, w'.at' i c = ∑ k ∈ range w.cols, A c k * w.at' i k + v c)
    (g g' : GSpline) (hg : interpolateFn lu junk tau w b = .ok g) (hg' : interpolateFn lu' junk' tau w' b = .ok g') (t : ℝ) (ha : Away g t) (x : ℕ → ℝ)
    (hx : Gives g t x) : Gives g' t (fun c => ∑ k ∈ range w.cols, A c k * x k + v c) := by
  obtain ⟨G, g1, g2, g3⟩ := good_of hlu hb hne ht hw hg
  obtain ⟨G', g1', g2', g3'⟩ := good_of hlu' hb hne ht hw' hg'
  have hbrk : brk g' = brk g := by funext i; simp [brk, g1, g1', G.ends, G'.ends]
  obtain ⟨i, hi⟩ := GSpline.located_exists G.pos t
  have hl' : ∀ j, Located g' t j ↔ Located g t j := fun j => by unfold Located; rw [hbrk, g1, g1']
  have ha' : Away g' t := fun j hj => by rw [g3', g1', hbrk, ← g3, ← g1]; exact ha j ((hl' j).mp hj)
  have v1 := Gives.unique hx (gives_near G ha (.of_located hi))
  refine Gives.congr (gives_near G' ha' (.of_located ((hl' i).mpr hi))) fun c hc => ?_
  have key := curve_affine (K := w.cols) (g := fun _ => g) (w := fun _ => w.at') (g' := g') (w' := w'.at') (fun _ _ => G) G' (fun _ _ => g1.trans g1'.symm)
    (fun _ _ => by rw [g3, g3']) (fun _ _ => by rw [g3, g3']) hc (cs := fun k => k) (fun k hk => by rw [g2]; exact hk) (A c) (v c)
    (fun i hi => hA i (by rw [g1'] at hi; exact hi) c (by rw [g2'] at hc; exact hc)) (i := i) (by rw [g1', ← g1]; exact hi.1) t
  beta_reduce
  rw [key]
  congr 1
  exact sum_congr rfl fun k hk => by rw [v1 k (by rw [g2]; exact mem_range.mp hk)]

/-- **C73** (superposition). The curve of a combination of two lists of way points is the combination of the curves. -/
theorem C73_superposition (lu : LU) (hlu : LUContract lu) (junk junk1 junk2 : Vec) (b : Basis) (hb : Interpolable b) (tau : List ℝ) (hne : tau ≠ [])
    (ht : ∀ t ∈ tau, 1 / 10 ^ 6 ≤ t) (w w1 w2 : Pts) (hw : w.rows = tau.length + 1) (hw1 : w1.rows = tau.length + 1) (hw2 : w2.rows = tau.length + 1)
    (hc1 : w1.cols = w.cols) (hc2 : w2.cols = w.cols) (p q : ℝ) (hA : ∀ i ≤ tau.length, ∀ c < w.cols, w.at' i c = p * w1.at' i c + q * w2.at' i c)
    (g g1 g2 : GSpline) (hg : interpolateFn lu junk tau w b = .ok g) (hg1 : interpolateFn lu junk1 tau w1 b = .ok g1)
    (hg2 : interpolateFn lu junk2 tau w2 b = .ok g2) (t : ℝ) (ha : Away g t) (x y : ℕ → ℝ) (hx : Gives g1 t x) (hy : Gives g2 t y) :
    Gives g t (fun c => p * x c + q * y c) := by
  obtain ⟨G, a1, a2, a3⟩ := good_of hlu hb hne ht hw hg
  obtain ⟨G1, b1, b2, b3⟩ := good_of hlu hb hne ht hw1 hg1
  obtain ⟨G2, c1, c2, c3⟩ := good_of hlu hb hne ht hw2 hg2
  have hb1 : brk g1 = brk g := by funext i; simp [brk, a1, b1, G.ends, G1.ends]
  have hb2 : brk g2 = brk g := by funext i; simp [brk, a1, c1, G.ends, G2.ends]
  obtain ⟨i, hi⟩ := GSpline.located_exists G.pos t
  have l1 : ∀ j, Located g1 t j ↔ Located g t j := fun j => by unfold Located; rw [hb1, a1, b1]
  have l2 : ∀ j, Located g2 t j ↔ Located g t j := fun j => by unfold Located; rw [hb2, a1, c1]
  have ha1 : Away g1 t := fun j hj => by rw [b3, b1, hb1, ← a3, ← a1]; exact ha j ((l1 j).mp hj)
  have ha2 : Away g2 t := fun j hj => by rw [c3, c1, hb2, ← a3, ← a1]; exact ha j ((l2 j).mp hj)
  have v1 := Gives.unique hx (gives_near G1 ha1 (.of_located ((l1 i).mpr hi)))
  have v2 := Gives.unique hy (gives_near G2 ha2 (.of_located ((l2 i).mpr hi)))
  refine Gives.congr (gives_near G ha (.of_located hi)) fun c hc => ?_
  have hcw : c < w.cols := by rw [a2] at hc; exact hc
  have key := curve_affine (K := 2) (g := fun k => if k = 0 then g1 else g2) (w := fun k => if k = 0 then w1.at' else w2.at') (g' := g) (w' := w.at')
    (fun k _ => by beta_reduce; split_ifs; exacts [G1, G2]) G (fun k _ => by beta_reduce; split_ifs; exacts [b1.trans a1.symm, c1.trans a1.symm])
    (fun k _ => by beta_reduce; split_ifs; exacts [by rw [b3, a3], by rw [c3, a3]]) (fun k _ => by beta_reduce; split_ifs; exacts [by rw [b3, a3], by rw [c3, a3]])
    hc (cs := fun _ => c) (fun k _ => by beta_reduce; split_ifs; exacts [by rw [b2, hc1]; exact hcw, by rw [c2, hc2]; exact hcw])
    (fun k => if k = 0 then p else q) 0
    (fun i hi => by rw [hA i (by rw [a1] at hi; exact hi) c hcw]; simp [sum_range_succ]) hi.1 t
  simp only [sum_range_succ, sum_range_zero, if_true, one_ne_zero, if_false, zero_add, add_zero] at key
  beta_reduce
  rw [key, v1 c (by rw [b2, hc1]; exact hcw), v2 c (by rw [c2, hc2]; exact hcw)]

/-- **C73** (the polynomial basis does not matter). With the same number of functions, Legendre and Lagrange bases, and Lagrange bases with different nodes, lead
to the same curve. -/
theorem C73_basis (lu lu' : LU) (hlu : LUContract lu) (hlu' : LUContract lu') (junk junk' : Vec) (b b' : Basis) (hb : Interpolable b) (hb' : Interpolable b')
    (hpoly : ∀ a, b ≠ .b0101 a) (hpoly' : ∀ a, b' ≠ .b0101 a) (hd : b'.dim = b.dim) (tau : List ℝ) (hne : tau ≠ []) (ht : ∀ t ∈ tau, 1 / 10 ^ 6 ≤ t) (w : Pts)
    (hw : w.rows = tau.length + 1) (g g' : GSpline) (hg : interpolateFn lu junk tau w b = .ok g) (hg' : interpolateFn lu' junk' tau w b' = .ok g')
    (t : ℝ) (ha : Away g t) (ha' : Away g' t) (x : ℕ → ℝ) (hx : Gives g t x) : Gives g' t x := by
  obtain ⟨G, g1, g2, g3⟩ := good_of hlu hb hne ht hw hg
  obtain ⟨G', g1', g2', g3'⟩ := good_of hlu' hb' hne ht hw hg'
  have hk : ∀ b : Basis, (∀ a, b ≠ .b0101 a) → kappa b = 0 := fun b h => by
    cases b with
    | b0101 a => exact absurd rfl (h a)
    | _ => rfl
  have hbrk : brk g' = brk g := by funext i; simp [brk, g1, g1', G.ends, G'.ends]
  obtain ⟨i, hi⟩ := GSpline.located_exists G.pos t
  have hl' : ∀ j, Located g' t j ↔ Located g t j := fun j => by unfold Located; rw [hbrk, g1, g1']
  have v1 := Gives.unique hx (gives_near G ha (.of_located hi))
  refine Gives.congr (gives_near G' ha' (.of_located ((hl' i).mpr hi))) fun c hc => ?_
  have key := curve_affine (K := 1) (g := fun _ => g) (w := fun _ => w.at') (g' := g') (w' := w.at') (fun _ _ => G) G' (fun _ _ => g1.trans g1'.symm)
    (fun _ _ => by rw [g3, g3', hd]) (fun _ _ => by rw [g3, g3', hk _ hpoly, hk _ hpoly']) hc (cs := fun _ => c) (fun k hk => by rw [g2, ← g2']; exact hc)
    (fun _ => 1) 0 (fun i hi => by simp) (i := i) (by rw [g1', ← g1]; exact hi.1) t
  simp only [sum_range_one, one_mul, add_zero] at key
  rw [v1 c (by rw [g2, ← g2']; exact hc)]
  exact key

/-- **C73** (time). Interpolating with all lengths multiplied by `f` gives the spline that `linear_scaling_new_execution_time` makes of the original one: the
same path, run at another speed (for Basis0101 with the parameter that belongs to the new unit of time). -/
theorem C73_time (lu lu' : LU) (hlu : LUContract lu) (hlu' : LUContract lu') (junk junk' : Vec) (b : Basis) (hb : Interpolable b) (tau : List ℝ) (hne : tau ≠ [])
    (ht : ∀ t ∈ tau, 1 / 10 ^ 6 ≤ t) (f : ℝ) (hf : 0 < f) (ht' : ∀ t ∈ tau, 1 / 10 ^ 6 ≤ t * f) (w : Pts) (hw : w.rows = tau.length + 1) (g : GSpline)
    (hg : interpolateFn lu junk tau w b = .ok g) :
    interpolateFn lu' junk' (tau.map (· * f)) w (GSpline.scaledBasis b f) = g.linearScaling (tau.sum * f) := by
  obtain ⟨G, g1, g2, g3⟩ := good_of hlu hb hne ht hw hg
  have hsb : Interpolable (GSpline.scaledBasis b f) := by
    cases b with
    | b0101 a =>
      have h0 := hb.pos a rfl
      have h1 : a < 1 := hb.valid.2
      have := GSpline.scaledAlpha_valid (a := a) (f := f) h1
      refine interpolable0101 ?_ this.2
      unfold GSpline.scaledAlpha
      have : 0 < 1 - a := by linarith
      positivity
    | _ => exact hb
  have hne' : tau.map (· * f) ≠ [] := by simpa using hne
  have hts : ∀ t ∈ tau.map (· * f), 1 / 10 ^ 6 ≤ t := by
    intro t h
    obtain ⟨u, hu, rfl⟩ := List.mem_map.mp h
    exact ht' u hu
  have hw' : w.rows = (tau.map (· * f)).length + 1 := by rw [List.length_map]; exact hw
  obtain ⟨g', hg'⟩ := interpolate_ok hlu' junk' hsb hne' hts hw'
  obtain ⟨G', g1', g2', g3'⟩ := good_of hlu' hsb hne' hts hw' hg'
  have hsum : 0 < tau.sum := pos_sum hne ht
  have hlen : g.domainLength = tau.sum := by simp [GSpline.domainLength, G.ends, g1]
  have hT : 1 / 10 ^ 6 ≤ tau.sum * f := by
    rw [← GSpline.sum_map_mul]
    obtain ⟨t, l, e⟩ := List.exists_cons_of_ne_nil hne'
    rw [e]
    have h1 : (0 : ℝ) ≤ l.sum := List.sum_nonneg fun u hu => le_trans (by norm_num) (hts u (by rw [e]; exact List.mem_cons_of_mem _ hu))
    have h2 := hts t (by rw [e]; exact List.mem_cons_self)
    simp only [List.sum_cons]
    linarith
  have hfac : tau.sum * f / g.domainLength = f := by rw [hlen]; field_simp
  rw [hg']
  unfold GSpline.linearScaling
  rw [if_neg (by have : (1 : ℝ) / 10 ^ 8 ≤ 1 / 10 ^ 6 := by norm_num
                 linarith), if_neg (by
    rw [hfac]
    push Not
    refine ⟨by rw [hlen]; exact hsum.ne', GSpline.scalingFinite_of_valid (by rw [g3]; exact hb.valid) hf.ne'⟩)]
  simp only [hfac]
  have hd1 : g.dom.1 = 0 := by rw [G.ends]
  have hmake : GSpline.make (g.dom.1, g.dom.1 + tau.sum * f) g.codim g.nIntervals (GSpline.scaledBasis g.basis f) g.coeffs (g.tau.map (· * f)) =
      .ok (g.scaled f (g.dom.1 + tau.sum * f)) := by
    refine GSpline.make_ok ?_ ?_
    · rw [hd1]; simp only [zero_add]; positivity
    · rw [GSpline.scaledBasis_dim]; exact G.con
  rw [hmake]
  congr 1
  have hparam : GSpline.ParamOk g.basis := GSpline.paramOk_of_valid G.basis.valid
  have he : g.dom.1 + f * (g.dom.2 - g.dom.1) = g.dom.1 + tau.sum * f := by rw [hd1, G.ends, g1]; simp; ring
  have hm := GSpline.meets_scaled hparam G.con G.pos.1 hf G.meets
  rw [he] at hm
  have GS : Good (g.scaled f (g.dom.1 + tau.sum * f)) w.at' := by
    refine ⟨?_, GSpline.consistent_scaled G.con _ _, ⟨?_, ?_⟩, ?_, hm⟩
    · change Interpolable (GSpline.scaledBasis g.basis f); rw [g3]; exact hsb
    · change g.tau.map (· * f) ≠ []; rw [g1]; exact hne'
    · change ∀ x ∈ g.tau.map (· * f), 0 < x; rw [g1]; exact fun x hx => lt_of_lt_of_le (by norm_num) (hts x hx)
    · change (g.dom.1, g.dom.1 + tau.sum * f) = (0, (g.tau.map (· * f)).sum)
      rw [GSpline.sum_map_mul, g1, hd1, zero_add]
  exact good_unique GS G' (by rw [g1', ← g1]; rfl) (by rw [g2', ← g2]; rfl) (by rw [g3', ← g3]; rfl)

theorem brk_reverse {g g' : GSpline} (h : g.dom.1 = 0) (h' : g'.dom.1 = 0) (ht : g'.tau = g.tau.reverse) (i : ℕ) :
    brk g' i = g.tau.sum - brk g (g.tau.length - i) := by
  unfold brk
  rw [h, h', ht, List.take_reverse, List.sum_reverse]
  have := List.sum_take_add_sum_drop g.tau (g.tau.length - i)
  linarith

/-- **C73** (reversal). The way points and the lengths in the opposite order lead to the same curve run backwards. -/
theorem C73_reverse (lu lu' : LU) (hlu : LUContract lu) (hlu' : LUContract lu') (junk junk' : Vec) (b : Basis) (hb : Interpolable b) (tau : List ℝ) (hne : tau ≠ [])
    (ht : ∀ t ∈ tau, 1 / 10 ^ 6 ≤ t) (w : Pts) (hw : w.rows = tau.length + 1) (g g' : GSpline) (hg : interpolateFn lu junk tau w b = .ok g)
    (hg' : interpolateFn lu' junk' tau.reverse (Pts.reverse w) b = .ok g') (t : ℝ) (ha : Away g t) (ha' : Away g' (tau.sum - t)) (x : ℕ → ℝ) (hx : Gives g t x) :
    Gives g' (tau.sum - t) x := by
  obtain ⟨G, g1, g2, g3⟩ := good_of hlu hb hne ht hw hg
  obtain ⟨G', g1', g2', g3'⟩ := good_of hlu' hb (by simpa using hne) (fun t h => ht t (List.mem_reverse.mp h)) (w := Pts.reverse w)
    (by rw [List.length_reverse]; exact hw) hg'
  have hl : 0 < g.tau.length := List.length_pos_of_ne_nil G.pos.1
  have hn' : g'.tau.length = g.tau.length := by rw [g1', g1, List.length_reverse]
  have hbr := brk_reverse (g := g) (g' := g') (by rw [G.ends]) (by rw [G'.ends]) (by rw [g1', g1])
  obtain ⟨i, hi⟩ := GSpline.located_exists G.pos t
  have hi1 := hi.1
  have near : Near g' (tau.sum - t) (g.tau.length - 1 - i) := by
    have hs : g.tau.sum = tau.sum := by rw [g1]
    have e1 := hbr (g.tau.length - 1 - i)
    have e2 := hbr (g.tau.length - 1 - i + 1)
    have e3 := hbr 0
    have e4 := hbr g.tau.length
    rw [show g.tau.length - (g.tau.length - 1 - i) = i + 1 by omega, hs] at e1
    rw [show g.tau.length - (g.tau.length - 1 - i + 1) = i by omega, hs] at e2
    rw [Nat.sub_zero, hs] at e3
    rw [Nat.sub_self, hs] at e4
    refine ⟨by omega, ?_⟩
    rcases hi.2 with y | y | y
    · refine .inr (.inr ⟨?_, by omega⟩)
      rw [hn', e4]; linarith [y.1]
    · exact .inr (.inl ⟨by rw [e1]; linarith [y.2], by rw [e2]; linarith [y.1]⟩)
    · refine .inl ⟨?_, by omega⟩
      rw [e3]; linarith [y.1]
  have v1 := Gives.unique hx (gives_near G ha (.of_located hi))
  refine Gives.congr (gives_near G' ha' near) fun c hc => ?_
  have hc' : c < g.codim := by rw [g2]; rw [g2'] at hc; exact hc
  have S := (G.sol hc').reverse hl tau.sum (b' := brk g') (fun i _ => by rw [hbr i, g1])
  have S' := G'.sol hc
  rw [hn', g3', ← g3] at S'
  have S2 : Sol g.tau.length (g.basis.dim / 2) (kappa g.basis) (brk g') (fun i => w.at' (g.tau.length - i) c) (fun i => curve g' i c) := by
    have e : (fun i => (Pts.reverse w).at' i c) = fun i => w.at' (g.tau.length - i) c := by
      funext i
      change w.at' (w.rows - 1 - i) c = _
      rw [hw, g1]; rfl
    rw [← e]; exact S'
  have key := Sol.unique (half_pos G.basis) (kappa_nonneg _) (b := brk g') (fun i hi => GSpline.brk_lt_succ G'.pos (by rw [hn']; exact hi)) S2 S
    (g.tau.length - 1 - i) (by omega)
  have := congrFun key (tau.sum - t)
  rw [show g.tau.length - 1 - (g.tau.length - 1 - i) = i by omega, show tau.sum + -1 * (tau.sum - t) = t by ring] at this
  rw [v1 c hc']
  exact this

/-- **C73** (one more way point on the curve). If one interval is cut in two and the point that the curve passes at that instant is added to the way points, the
curve stays the same. -/
theorem C73_insert (lu lu' : LU) (hlu : LUContract lu) (hlu' : LUContract lu') (junk junk' : Vec) (b : Basis) (hb : Interpolable b) (l r : List ℝ) (z1 z2 : ℝ)
    (ht : ∀ t ∈ l ++ z1 :: z2 :: r, 1 / 10 ^ 6 ≤ t) (w : Pts) (hw : w.rows = (l ++ (z1 + z2) :: r).length + 1) (g g' : GSpline)
    (hg : interpolateFn lu junk (l ++ (z1 + z2) :: r) w b = .ok g) (ha0 : Away g (l.sum + z1)) (p : ℕ → ℝ) (hp : Gives g (l.sum + z1) p)
    (hg' : interpolateFn lu' junk' (l ++ z1 :: z2 :: r) (Pts.insert w (l.length + 1) p) b = .ok g') (t : ℝ) (ha : Away g t) (ha' : Away g' t) (x : ℕ → ℝ)
    (hx : Gives g t x) : Gives g' t x := by
  have z1p : 1 / 10 ^ 6 ≤ z1 := ht z1 (by simp)
  have z2p : 1 / 10 ^ 6 ≤ z2 := ht z2 (by simp)
  have z1p' : (0 : ℝ) < z1 := lt_of_lt_of_le (by norm_num) z1p
  have z2p' : (0 : ℝ) < z2 := lt_of_lt_of_le (by norm_num) z2p
  have ht0 : ∀ t ∈ l ++ (z1 + z2) :: r, 1 / 10 ^ 6 ≤ t := by
    intro u hu
    simp only [List.mem_append, List.mem_cons] at hu
    rcases hu with h | h | h
    · exact ht u (by simp [h])
    · rw [h]; linarith
    · exact ht u (by simp [h])
  obtain ⟨G, g1, g2, g3⟩ := good_of hlu hb (by simp) ht0 hw hg
  obtain ⟨G', g1', g2', g3'⟩ := good_of hlu' hb (by simp) ht (w := Pts.insert w (l.length + 1) p) (by
    change w.rows + 1 = _; rw [hw]; simp; omega) hg'
  have hn : g.tau.length = l.length + 1 + r.length := by rw [g1]; simp; omega
  have hn' : g'.tau.length = g.tau.length + 1 := by rw [hn, g1']; simp; omega
  set j := l.length with hj
  have b1 : ∀ i ≤ j, brk g' i = brk g i := by
    intro i hi
    unfold brk
    rw [g1, g1', G.ends, G'.ends, List.take_append_of_le_length hi, List.take_append_of_le_length hi]
  have b2 : brk g' (j + 1) = l.sum + z1 := by
    unfold brk
    rw [g1', G'.ends, List.take_append, List.take_of_length_le (l := l) (by omega), show j + 1 - l.length = 1 by omega]
    simp
  have b3 : ∀ i, j < i → i ≤ g.tau.length → brk g' (i + 1) = brk g i := by
    intro i hi _
    obtain ⟨k, rfl⟩ : ∃ k, i = j + 1 + k := ⟨i - (j + 1), by omega⟩
    unfold brk
    rw [g1, g1', G.ends, G'.ends, List.take_append, List.take_append, List.take_of_length_le (l := l) (by omega), List.take_of_length_le (l := l) (by omega)]
    rw [show j + 1 + k + 1 - l.length = k + 1 + 1 by omega, show j + 1 + k - l.length = k + 1 by omega]
    simp
    ring
  have bj : brk g j = l.sum := by unfold brk; rw [g1, G.ends]; simp [hj]
  have bj1 : brk g (j + 1) = l.sum + (z1 + z2) := by
    unfold brk
    rw [g1, G.ends, List.take_append, List.take_of_length_le (l := l) (by omega), show j + 1 - l.length = 1 by omega]
    simp
  have nearj : Near g (l.sum + z1) j := ⟨by omega, .inr (.inl ⟨by rw [bj]; linarith, by rw [bj1]; linarith⟩)⟩
  have hpj := Gives.unique hp (gives_near G ha0 nearj)
  obtain ⟨i, hi⟩ := GSpline.located_exists G.pos t
  have hi1 := hi.1
  have v1 := Gives.unique hx (gives_near G ha (.of_located hi))
  obtain ⟨k, hk, near⟩ : ∃ k, (if k ≤ j then k else k - 1) = i ∧ Near g' t k := by
    rcases Nat.lt_trichotomy i j with h | h | h
    · refine ⟨i, if_pos h.le, by omega, ?_⟩
      rcases hi.2 with y | y | y
      · exact .inl ⟨by rw [b1 0 (by omega)]; exact y.1, y.2⟩
      · exact .inr (.inl ⟨by rw [b1 i h.le]; exact y.1.le, by rw [b1 (i + 1) h]; exact y.2⟩)
      · omega
    · subst h
      rcases le_total t (l.sum + z1) with hts | hts
      · refine ⟨j, if_pos le_rfl, by omega, ?_⟩
        rcases hi.2 with y | y | y
        · exact .inl ⟨by rw [b1 0 (by omega)]; exact y.1, y.2⟩
        · exact .inr (.inl ⟨by rw [b1 j le_rfl]; exact y.1.le, by rw [b2]; exact hts⟩)
        · exact .inr (.inl ⟨by
            rw [b1 j le_rfl]
            exact (brk_le G.pos hi1.le le_rfl).trans y.1.le, by rw [b2]; exact hts⟩)
      · refine ⟨j + 1, by rw [if_neg (by omega)]; rfl, by omega, ?_⟩
        rcases hi.2 with y | y | y
        · exfalso
          have := brk_le G.pos (Nat.zero_le j) hi1.le
          linarith [y.1]
        · exact .inr (.inl ⟨by rw [b2]; exact hts, by rw [b3 (j + 1) (by omega) (by omega)]; exact y.2⟩)
        · refine .inr (.inr ⟨?_, by omega⟩)
          rw [hn', b3 _ hi1 le_rfl]; exact y.1.le
    · refine ⟨i + 1, by rw [if_neg (by omega)]; rfl, by omega, ?_⟩
      rcases hi.2 with y | y | y
      · omega
      · exact .inr (.inl ⟨by rw [b3 i h hi1.le]; exact y.1.le, by rw [b3 (i + 1) (by omega) (by omega)]; exact y.2⟩)
      · refine .inr (.inr ⟨?_, by omega⟩)
        rw [hn', b3 _ (by omega) le_rfl]; exact y.1.le
  refine Gives.congr (gives_near G' ha' near) fun c hc => ?_
  have hc' : c < g.codim := by rw [g2]; rw [g2'] at hc; exact hc
  have S := (G.sol hc').split (j := j) (s := l.sum + z1) (b' := brk g') (w' := fun i => (Pts.insert w (j + 1) p).at' i c) (by omega) b1 b2 b3
    (fun i hi => by
      change (if i < j + 1 then _ else _) = _
      rw [if_pos (by omega)])
    (by
      change (if j + 1 < j + 1 then _ else if j + 1 = j + 1 then p c else _) = _
      rw [if_neg (by omega), if_pos rfl]
      exact hpj c hc')
    (fun i h1 h2 => by
      change (if i + 1 < j + 1 then _ else if i + 1 = j + 1 then p c else w.at' (i + 1 - 1) c) = _
      rw [if_neg (by omega), if_neg (by omega)]
      rfl)
  have S' := G'.sol hc
  rw [hn', g3', ← g3] at S'
  have key := Sol.unique (half_pos G.basis) (kappa_nonneg _) (b := brk g') (fun i hi => GSpline.brk_lt_succ G'.pos (by rw [hn']; exact hi)) S' S
    k (by have := near.1; omega)
  have := congrFun key t
  rw [hk] at this
  rw [v1 c hc']
  exact this

/-- Way points in one dimension, all zero but one. -/
def unitPts (n i : ℕ) : Pts := ⟨n + 1, 1, fun r _ => if r = i then 1 else 0⟩

/-- **C73** (the curve is a weighted mean of the way points). For a basis and interval lengths there are continuous functions, one for each way point, such that for
all way points, of any dimension, the interpolating curve is the sum of the way points multiplied by these functions. They add up to one at every instant, and
each is one at its own way point and zero at the others. -/
theorem C73_weights (b : Basis) (hb : Interpolable b) (tau : List ℝ) (hne : tau ≠ []) (ht : ∀ t ∈ tau, 1 / 10 ^ 6 ≤ t) :
    ∃ φ : ℕ → ℝ → ℝ, (∀ i ≤ tau.length, Continuous (φ i)) ∧ (∀ t, ∑ i ∈ range (tau.length + 1), φ i t = 1) ∧
      (∀ i ≤ tau.length, ∀ j ≤ tau.length, φ i (tau.take j).sum = if i = j then 1 else 0) ∧
      ∀ lu, LUContract lu → ∀ (junk : Vec) (w : Pts), w.rows = tau.length + 1 → ∀ g, interpolateFn lu junk tau w b = .ok g → ∀ t, Away g t →
        Gives g t (fun c => ∑ i ∈ range (tau.length + 1), w.at' i c * φ i t) := by
  have hu : ∀ i, ∃ g, interpolateFn exactLU (fun _ => 0) tau (unitPts tau.length i) b = .ok g := fun i =>
    interpolate_ok exactLU_contract _ hb hne ht rfl
  choose u hu using hu
  have hU := fun i => good_of exactLU_contract hb hne ht (w := unitPts tau.length i) rfl (hu i)
  have hl : 0 < tau.length := List.length_pos_of_ne_nil hne
  have hbrk : ∀ i, brk (u i) = fun j => (tau.take j).sum := fun i => by
    funext j; unfold brk; rw [(hU i).1.ends, (hU i).2.1]; simp
  have hnear : ∀ i k t, Near (u i) t k ↔ Near (u 0) t k := fun i k t => by unfold Near; rw [hbrk, hbrk, (hU i).2.1, (hU 0).2.1]
  have hloc : ∀ t, Located (u 0) t ((u 0).getInterval t) := fun t => by
    obtain ⟨j, hj⟩ := GSpline.located_exists (hU 0).1.pos t
    rw [GSpline.getInterval_of_located (hU 0).1.pos hj]; exact hj
  have hcod : ∀ i, (u i).codim = 1 := fun i => (hU i).2.2.1
  have hphi : ∀ i k t, Near (u 0) t k → curve (u i) ((u 0).getInterval t) 0 t = curve (u i) k 0 t := fun i k t h =>
    near_eq (hU i).1 ((hnear i _ t).mpr (.of_located (hloc t))) ((hnear i _ t).mpr h) (by rw [hcod]; exact Nat.one_pos)
  have hlen : ∀ t, (u 0).getInterval t < tau.length := fun t => by have := (hloc t).1; rwa [(hU 0).2.1] at this
  refine ⟨fun i t => curve (u i) ((u 0).getInterval t) 0 t, fun i hi => ?_, fun t => ?_, fun i hi j hj => ?_, fun lu hlu junk w hw g hg t ha => ?_⟩
  · refine LocallyFinite.continuous (f := fun k : Fin tau.length => {t | Near (u 0) t k}) (locallyFinite_of_finite _) ?_ (fun k => ?_) (fun k => ?_)
    · refine Set.eq_univ_of_forall fun t => Set.mem_iUnion.mpr ⟨⟨(u 0).getInterval t, hlen t⟩, .of_located (hloc t)⟩
    · have : {t | Near (u 0) t k} = {t | t ≤ brk (u 0) 0 ∧ (k : ℕ) = 0} ∪ ({t | brk (u 0) k ≤ t ∧ t ≤ brk (u 0) (k + 1)} ∪
          {t | brk (u 0) tau.length ≤ t ∧ (k : ℕ) + 1 = tau.length}) := by
        ext t
        unfold Near
        simp only [(hU 0).2.1, k.2, true_and, Set.mem_setOf_eq, Set.mem_union]
      rw [this]
      refine IsClosed.union ?_ (IsClosed.union ?_ ?_)
      · by_cases h : (k : ℕ) = 0
        · simp only [h, and_true]; exact isClosed_Iic
        · simp only [h, and_false, Set.setOf_false]; exact isClosed_empty
      · exact isClosed_Icc
      · by_cases h : (k : ℕ) + 1 = tau.length
        · simp only [h, and_true]; exact isClosed_Ici
        · simp only [h, and_false, Set.setOf_false]; exact isClosed_empty
    · refine ContinuousOn.congr (f := curve (u i) k 0) ?_ fun t h => hphi i k t h
      exact (Fn.contDiff_curve (u i) k 0).continuous.continuousOn
  · have S := Sol.affine (n := tau.length) (K := tau.length + 1) (half_pos hb) (κ := kappa b) (b := brk (u 0)) (w := fun k i => (unitPts tau.length k).at' i 0)
      (F := fun k i => curve (u k) i 0) (fun k _ => by
        have := (hU k).1.sol (c := 0) (by rw [hcod]; exact Nat.one_pos)
        rw [(hU k).2.1, (hU k).2.2.2, hbrk k, ← hbrk 0] at this
        exact this) hl (fun _ => 1) 0
    have S1 := Sol.affine (n := tau.length) (K := 0) (half_pos hb) (κ := kappa b) (b := brk (u 0)) (w := fun k i => 0)
      (F := fun k i _ => 0) (fun k hk => by omega) hl (fun _ => 0) 1
    have hsum : ∀ i ≤ tau.length, ∑ k ∈ range (tau.length + 1), 1 * (unitPts tau.length k).at' i 0 + 0 = ∑ k ∈ range 0, 0 * (0 : ℝ) + 1 := by
      intro i hi
      simp only [unitPts, one_mul, add_zero, range_zero, sum_empty, zero_add]
      rw [sum_ite_eq, if_pos (mem_range.mpr (by omega))]
    have S2 : Sol tau.length (b.dim / 2) (kappa b) (brk (u 0)) (fun i => ∑ k ∈ range 0, 0 * (0 : ℝ) + 1)
        (fun i t => ∑ k ∈ range (tau.length + 1), 1 * curve (u k) i 0 t + 0) :=
      ⟨S.analytic, S.ode, fun i hi => (S.start i hi).trans (hsum i hi.le), fun i hi => (S.stop i hi).trans (hsum (i + 1) hi), S.restL, S.restR, S.join⟩
    have := congrFun (Sol.unique (half_pos hb) (kappa_nonneg _) (b := brk (u 0)) (fun i hi => GSpline.brk_lt_succ (hU 0).1.pos (by rw [(hU 0).2.1]; exact hi))
      S2 S1 _ (hlen t)) t
    simpa using this
  · have hpos := (hU 0).1.pos
    have S := (hU i).1.sol (c := 0) (by rw [hcod]; exact Nat.one_pos)
    have e : (tau.take j).sum = brk (u 0) j := by rw [hbrk]
    have e' : (tau.take j).sum = brk (u i) j := by rw [hbrk]
    beta_reduce
    have eq : ∀ n, ((if n = i then 1 else 0 : ℝ)) = if i = n then 1 else 0 := fun n => by simp only [eq_comm]
    rcases Nat.eq_zero_or_pos j with rfl | h
    · have near : Near (u 0) (brk (u 0) 0) 0 := ⟨by rw [(hU 0).2.1]; exact hl, .inl ⟨le_rfl, rfl⟩⟩
      rw [e, hphi i 0 _ near, ← e, e', S.start 0 (by rw [(hU i).2.1]; exact hl)]
      exact eq 0
    · have near : Near (u 0) (brk (u 0) j) (j - 1) := ⟨by rw [(hU 0).2.1]; omega, .inr (.inl ⟨brk_le hpos (by omega) (by rw [(hU 0).2.1]; exact hj), by
        rw [show j - 1 + 1 = j by omega]⟩)⟩
      have := S.stop (j - 1) (by rw [(hU i).2.1]; omega)
      rw [show j - 1 + 1 = j by omega] at this
      rw [e, hphi i (j - 1) _ near, ← e, e', this]
      exact eq j
  · obtain ⟨G, g1, g2, g3⟩ := good_of hlu hb hne ht hw hg
    have hb' : brk g = brk (u 0) := by rw [hbrk]; funext j; unfold brk; rw [G.ends, g1]; simp
    have near : Near g t ((u 0).getInterval t) := by
      have := Near.of_located (hloc t)
      unfold Near at this ⊢
      rw [hb', g1]; rw [(hU 0).2.1] at this; exact this
    refine Gives.congr (gives_near G ha near) fun c hc => ?_
    have key := curve_affine (K := tau.length + 1) (g := u) (w := fun k => (unitPts tau.length k).at') (g' := g) (w' := w.at') (fun k _ => (hU k).1) G
      (fun k _ => by rw [g1, (hU k).2.1]) (fun k _ => by rw [g3, (hU k).2.2.2]) (fun k _ => by rw [g3, (hU k).2.2.2]) hc (cs := fun _ => 0)
      (fun k _ => by rw [hcod]; exact Nat.one_pos) (fun k => w.at' k c) 0
      (fun i hi => by
        rw [g1] at hi
        simp only [unitPts, mul_ite, mul_one, mul_zero, add_zero]
        rw [sum_ite_eq, if_pos (mem_range.mpr (by omega))]) near.1 t
    simpa using key

/-- **C73** (small errors stay small). For a basis and interval lengths there is a constant such that, whatever the way points and their dimension, changing every
entry by at most `δ` changes the curve by at most the constant times `δ`, at all instants. -/
theorem C73_stable (b : Basis) (hb : Interpolable b) (tau : List ℝ) (hne : tau ≠ []) (ht : ∀ t ∈ tau, 1 / 10 ^ 6 ≤ t) :
    ∃ C : ℝ, ∀ lu, LUContract lu → ∀ (junk junk' : Vec) (w w' : Pts), w.rows = tau.length + 1 → w'.rows = tau.length + 1 → w'.cols = w.cols →
      ∀ δ : ℝ, (∀ i < w.rows, ∀ c < w.cols, |w.at' i c - w'.at' i c| ≤ δ) → ∀ g g', interpolateFn lu junk tau w b = .ok g →
        interpolateFn lu junk' tau w' b = .ok g' → ∀ t, 0 ≤ t → t ≤ tau.sum → Away g t → ∀ x x', Gives g t x → Gives g' t x' →
          ∀ c < w.cols, |x c - x' c| ≤ C * δ := by
  obtain ⟨φ, hcont, -, -, hφ⟩ := C73_weights b hb tau hne ht
  have hbd : ∀ i, ∃ C : ℝ, 0 ≤ C ∧ (i ≤ tau.length → ∀ t ∈ Set.Icc 0 tau.sum, |φ i t| ≤ C) := by
    intro i
    by_cases hi : i ≤ tau.length
    · obtain ⟨C, hC⟩ := isCompact_Icc.exists_bound_of_continuousOn (s := Set.Icc 0 tau.sum) (hcont i hi).continuousOn
      exact ⟨|C|, abs_nonneg _, fun _ t ht => (hC t ht).trans (le_abs_self C)⟩
    · exact ⟨0, le_rfl, fun h => absurd h hi⟩
  choose C hC0 hC using hbd
  refine ⟨∑ i ∈ range (tau.length + 1), C i, fun lu hlu junk junk' w w' hw hw' hcw δ hδ g g' hg hg' t h0 h1 ha x x' hx hx' c hc => ?_⟩
  obtain ⟨G, g1, g2, g3⟩ := good_of hlu hb hne ht hw hg
  obtain ⟨G', g1', g2', g3'⟩ := good_of hlu hb hne ht hw' hg'
  have hbrk : brk g' = brk g := by funext i; simp [brk, g1, g1', G.ends, G'.ends]
  have hl' : ∀ j, Located g' t j ↔ Located g t j := fun j => by unfold Located; rw [hbrk, g1, g1']
  have ha' : Away g' t := fun j hj => by rw [g3', g1', hbrk, ← g3, ← g1]; exact ha j ((hl' j).mp hj)
  have e := Gives.unique hx (hφ lu hlu junk w hw g hg t ha) c (by rw [g2]; exact hc)
  have e' := Gives.unique hx' (hφ lu hlu junk' w' hw' g' hg' t ha') c (by rw [g2', hcw]; exact hc)
  rw [e, e', ← sum_sub_distrib, sum_mul]
  refine (abs_sum_le_sum_abs _ _).trans (sum_le_sum fun i hi => ?_)
  have hi' := mem_range.mp hi
  rw [← sub_mul, abs_mul, mul_comm]
  exact mul_le_mul (hC i (by omega) t ⟨h0, h1⟩) (hδ i (by omega) c hc) (abs_nonneg _) (hC0 i)

/-! ## Cases that meet the hypotheses -/

theorem away_exact {g : GSpline} (h : Exact g.basis) (t : ℝ) : Away g t := fun _ _ => exact_clean h _

/-- Three way points in the plane. -/
def corner : Pts := ⟨3, 2, fun i c => if i = 0 then 0 else if i = 1 then 3 * c + 1 else 2⟩

/-- The same way points after a quarter turn and a translation. -/
def turned : Pts := ⟨3, 2, fun i c => if c = 0 then -corner.at' i 1 + 5 else corner.at' i 0 + 7⟩

theorem corner_ok (junk : Vec) {b : Basis} (hb : Interpolable b) : ∃ g, interpolateFn exactLU junk [1, 2] corner b = .ok g :=
  interpolate_ok exactLU_contract junk hb (by simp) (by simp; norm_num) rfl

/-- C73: a quarter turn. -/
example : ∃ g g', interpolateFn exactLU (fun _ => 0) [1, 2] corner (.legendre 4) = .ok g ∧ interpolateFn exactLU (fun _ => 1) [1, 2] turned (.legendre 4) = .ok g' ∧
    ∀ t x, Gives g t x → Gives g' t (fun c => if c = 0 then -x 1 + 5 else x 0 + 7) := by
  obtain ⟨g, hg⟩ := corner_ok (fun _ => 0) interpolable4
  obtain ⟨g', hg'⟩ := interpolate_ok exactLU_contract (fun _ => 1) interpolable4 (tau := [1, 2]) (by simp) (by simp; norm_num) (w := turned) rfl
  refine ⟨g, g', hg, hg', fun t x hx => ?_⟩
  have e := (good_of exactLU_contract interpolable4 (tau := [1, 2]) (by simp) (by simp; norm_num) rfl hg).2.2.2
  have e' := (good_of exactLU_contract interpolable4 (tau := [1, 2]) (by simp) (by simp; norm_num) rfl hg').2.2.1
  have := C73_affine exactLU exactLU exactLU_contract exactLU_contract _ _ (.legendre 4) interpolable4 [1, 2] (by simp) (by simp; norm_num) corner turned rfl rfl
    (fun c k => if c = 0 then (if k = 1 then -1 else 0) else if k = 0 then 1 else 0) (fun c => if c = 0 then 5 else 7)
    (fun i _ c hc => by
      have hc' : c < 2 := hc
      change (if c = 0 then _ else _) = ∑ k ∈ range 2, _ + _
      interval_cases c <;> simp [sum_range_succ])
    g g' hg hg' t (away_exact (by rw [e]; trivial) t) x hx
  refine Gives.congr this fun c hc => ?_
  have hc' : c < 2 := by rw [e'] at hc; exact hc
  change ∑ k ∈ range 2, _ + _ = _
  interval_cases c <;> simp [sum_range_succ]

/-- C73: the way back. -/
example : ∃ g g', interpolateFn exactLU (fun _ => 0) [1, 2] corner (.b0101 (1 / 2)) = .ok g ∧
    interpolateFn exactLU (fun _ => 0) [2, 1] (Pts.reverse corner) (.b0101 (1 / 2)) = .ok g' ∧ ∀ t x, Gives g t x → Gives g' (3 - t) x := by
  have hb : Interpolable (.b0101 (1 / 2)) := interpolable0101 (by norm_num) (by norm_num)
  obtain ⟨g, hg⟩ := corner_ok (fun _ => 0) hb
  obtain ⟨g', hg'⟩ := interpolate_ok exactLU_contract (fun _ => 0) hb (tau := [2, 1]) (by simp) (by simp; norm_num) (w := Pts.reverse corner) rfl
  refine ⟨g, g', hg, hg', fun t x hx => ?_⟩
  have e := (good_of exactLU_contract hb (tau := [1, 2]) (by simp) (by simp; norm_num) rfl hg).2.2.2
  have e' := (good_of exactLU_contract hb (tau := [2, 1]) (by simp) (by simp; norm_num) (w := Pts.reverse corner) rfl hg').2.2.2
  have := C73_reverse exactLU exactLU exactLU_contract exactLU_contract _ _ _ hb [1, 2] (by simp) (by simp; norm_num) corner rfl g g' hg hg' t
    (away_exact (by rw [e]; trivial) t) (away_exact (by rw [e']; trivial) _) x hx
  rwa [show ([1, 2] : List ℝ).sum = 3 by norm_num] at this

/-- C73: the second interval, of length two, is cut in its middle. -/
example : ∃ g p g', interpolateFn exactLU (fun _ => 0) [1, 1 + 1] corner (.legendre 4) = .ok g ∧ Gives g 2 p ∧
    interpolateFn exactLU (fun _ => 0) [1, 1, 1] (Pts.insert corner 2 p) (.legendre 4) = .ok g' ∧ ∀ t x, Gives g t x → Gives g' t x := by
  obtain ⟨g, hg⟩ := interpolate_ok exactLU_contract (fun _ => 0) interpolable4 (tau := [1, 1 + 1]) (by simp) (by simp; norm_num) (w := corner) rfl
  have G := good_of exactLU_contract interpolable4 (tau := [1, 1 + 1]) (by simp) (by simp; norm_num) rfl hg
  have hex : Exact g.basis := by rw [G.2.2.2]; trivial
  obtain ⟨i, hi⟩ := GSpline.located_exists G.1.pos 2
  have hp := gives_near G.1 (away_exact hex 2) (.of_located hi)
  obtain ⟨g', hg'⟩ := interpolate_ok exactLU_contract (fun _ => 0) interpolable4 (tau := [1, 1, 1]) (by simp) (by simp; norm_num)
    (w := Pts.insert corner 2 fun c => curve g i c 2) rfl
  have G' := good_of exactLU_contract interpolable4 (tau := [1, 1, 1]) (by simp) (by simp; norm_num) (w := Pts.insert corner 2 fun c => curve g i c 2) rfl hg'
  have hex' : Exact g'.basis := by rw [G'.2.2.2]; trivial
  refine ⟨g, _, g', hg, hp, hg', fun t x hx => ?_⟩
  exact C73_insert exactLU exactLU exactLU_contract exactLU_contract _ _ _ interpolable4 [1] [] 1 1 (by simp; norm_num) corner rfl g g' hg (away_exact hex _) _
    (by rw [show ([1] : List ℝ).sum + 1 = 2 by norm_num]; exact hp) hg' t (away_exact hex t) (away_exact hex' t) x hx

theorem twoNodes_clean {s : ℝ} (h : s = -1 ∨ s = 0 ∨ s = 1) : (Basis.lagrange [-1, 1]).CleanAt s := by
  intro j hj hjj
  have hj' : j < 2 := hj
  rcases h with rfl | rfl | rfl <;> interval_cases j <;>
    first | (simp [vecOf]; done) | (exfalso; revert hjj; simp [Lagrange.almostEqual, vecOf, tol9]; norm_num)

/-- C73: polygons in the two bases with two functions. -/
example : ∃ g g' x, interpolateFn exactLU (fun _ => 0) [1, 2] corner (.legendre 2) = .ok g ∧ interpolateFn exactLU (fun _ => 0) [1, 2] corner (.lagrange [-1, 1]) = .ok g' ∧
    Gives g (1 / 2) x ∧ Gives g' (1 / 2) x := by
  have hb : Interpolable (.legendre 2) := interpolable_legendre le_rfl rfl
  have hb' : Interpolable (.lagrange [-1, 1]) :=
    ⟨twoNodes_valid, rfl, by simp [Basis.dim], twoNodes_clean (.inl rfl), twoNodes_clean (.inr (.inr rfl)), by simp⟩
  obtain ⟨g, hg⟩ := corner_ok (fun _ => 0) hb
  obtain ⟨g', hg'⟩ := corner_ok (fun _ => 0) hb'
  have G := good_of exactLU_contract hb (tau := [1, 2]) (by simp) (by simp; norm_num) rfl hg
  have G' := good_of exactLU_contract hb' (tau := [1, 2]) (by simp) (by simp; norm_num) rfl hg'
  obtain ⟨i, hi⟩ := GSpline.located_exists G.1.pos (1 / 2)
  have ha := away_exact (g := g) (by rw [G.2.2.2]; trivial) (1 / 2)
  have hx := gives_near G.1 ha (.of_located hi)
  refine ⟨g, g', _, hg, hg', hx, ?_⟩
  refine C73_basis exactLU exactLU exactLU_contract exactLU_contract _ _ _ _ hb hb' (by simp) (by simp) rfl [1, 2] (by simp) (by simp; norm_num) corner rfl g g' hg hg'
    (1 / 2) ha (fun j hj => ?_) _ hx
  rw [G'.2.2.2]
  have hl : g'.tau.length = 2 := by rw [G'.2.1]; rfl
  have b0 : brk g' 0 = 0 := by unfold brk; rw [G'.1.ends]; simp
  have b1 : brk g' 1 = 1 := by unfold brk; rw [G'.1.ends, G'.2.1]; simp
  have b2 : brk g' 2 = 3 := by unfold brk; rw [G'.1.ends, G'.2.1]; norm_num
  have hj1 := hj.1
  rw [hl] at hj1
  have : j = 0 := by
    rcases hj.2 with y | y | y
    · exact y.2
    · by_contra hne
      have : j = 1 := by omega
      subst this
      rw [b1] at y
      linarith [y.1]
    · rw [hl, b2] at y
      linarith [y.1]
  subst this
  rw [b0, G'.2.1]
  refine twoNodes_clean (.inr (.inl ?_))
  simp [window, vecOf]

/-- C73: twice as slow. -/
example : ∃ g, interpolateFn exactLU (fun _ => 0) [1, 2] corner (.b0101 (1 / 2)) = .ok g ∧
    interpolateFn exactLU (fun _ => 0) [1 * 2, 2 * 2] corner (.b0101 (GSpline.scaledAlpha (1 / 2) 2)) = g.linearScaling 6 := by
  have hb : Interpolable (.b0101 (1 / 2)) := interpolable0101 (by norm_num) (by norm_num)
  obtain ⟨g, hg⟩ := corner_ok (fun _ => 0) hb
  refine ⟨g, hg, ?_⟩
  have := C73_time exactLU exactLU exactLU_contract exactLU_contract (fun _ => 0) (fun _ => 0) _ hb [1, 2] (by simp) (by simp; norm_num) 2 (by norm_num)
    (by simp; norm_num) corner rfl g hg
  rw [show ([1, 2] : List ℝ).sum * 2 = 6 by norm_num] at this
  exact this

/-- A combination of the two. -/
noncomputable def blend : Pts := ⟨3, 2, fun i c => 2 * corner.at' i c + -3 * turned.at' i c⟩

/-- C73: superposition, with way points that are the sum of two lists. -/
example : ∃ g g1 g2, interpolateFn exactLU (fun _ => 0) [1, 2] corner (.legendre 4) = .ok g ∧ interpolateFn exactLU (fun _ => 0) [1, 2] turned (.legendre 4) = .ok g1 ∧
    interpolateFn exactLU (fun _ => 0) [1, 2] blend (.legendre 4) = .ok g2 ∧
    ∀ t x y, Gives g t x → Gives g1 t y → Gives g2 t (fun c => 2 * x c + -3 * y c) := by
  obtain ⟨g, hg⟩ := corner_ok (fun _ => 0) interpolable4
  obtain ⟨g1, hg1⟩ := interpolate_ok exactLU_contract (fun _ => 0) interpolable4 (tau := [1, 2]) (by simp) (by simp; norm_num) (w := turned) rfl
  obtain ⟨g2, hg2⟩ := interpolate_ok exactLU_contract (fun _ => 0) interpolable4 (tau := [1, 2]) (by simp) (by simp; norm_num)
    (w := blend) rfl
  refine ⟨g, g1, g2, hg, hg1, hg2, fun t x y hx hy => ?_⟩
  have e := (good_of exactLU_contract interpolable4 (tau := [1, 2]) (by simp) (by simp; norm_num) (w := blend) rfl hg2).2.2.2
  exact C73_superposition exactLU exactLU_contract _ _ _ _ interpolable4 [1, 2] (by simp) (by simp; norm_num) blend corner turned rfl rfl rfl rfl rfl 2 (-3)
    (fun _ _ _ _ => rfl) g2 g g1 hg2 hg hg1 t (away_exact (by rw [e]; trivial) t) x y hx hy

end GSplines.Props
