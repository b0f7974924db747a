import Verif.Props.Integral

/-!
# C06 at all points: `deriv(n)` and repeated first derivatives, and the product rule

The other theorems of C06 compare with the derivatives of analysis, and need a point where the parts of the object are smooth. Those of this file hold at every point,
also at the break points of splines and concatenations, where the objects return the values of one of the pieces.
-/

namespace GSplines.Props

open GSplines Spec Finset Fn

/-- **C06**: at every point `deriv(n)` returns what `n` first derivatives return. -/
theorem C06_order_by_order (f : Fn) (hf : Regular f) (n : ℕ) (hn : OrderOk n f) :
    ∃ f' f'', f.deriv n = .ok f' ∧ iterD1 n f = .ok f'' ∧ ∀ t, ∃ r, f'.call [t] = .ok [r] ∧ f''.call [t] = .ok [r] ∧ r.length = f.codim := by
  obtain ⟨f', f'', h1, h2, h3, h4, h5, h6, h7⟩ := deriv_same (good_of_regular hf).1 hn
  refine ⟨f', f'', h1, h2, fun t => ⟨_, (tot_of_good h3) t, ?_, by simp [h6]⟩⟩
  have := h7.run rfl t
  rw [call, h7.2.1, this]
  exact (tot_of_good h3) t

/-- The hypotheses are met by a concatenation with a break, with any order. -/
example (n : ℕ) : Regular kink ∧ OrderOk n kink := ⟨kink_regular, kink_order n⟩

/-- The component of a factor that enters component `c` of a product. -/
def part (f : Fn) (c : ℕ) : ℕ := if f.codim = 1 then 0 else c

theorem dv_mul {f g r : Fn} (ov : Ov) (hf : Good f) (hg : Good g) (pf : 0 < f.codim) (pg : 0 < g.codim) (hd : f.dom = g.dom) (hr : mul ov f g = .ok r) (n : ℕ) {c : ℕ}
    (hc : c < r.codim) (t : ℝ) :
    dv r n c t = ∑ i ∈ range (n + 1), (n.choose i : ℝ) * dv f i (part f c) t * dv g (n - i) (part g c) t := by
  have hgr : Good r := (good_mul ov hf hg pf pg hd hr).1
  have key : jet r c t = jet f (part f c) t * jet g (part g c) t := by
    have prod : ∀ {v s : Fn} {d : ℝ × ℝ}, Good v → Good s → s.codim = 1 → Good (expr d v.codim .mul (splice .mul v ++ splice .mul s)) → c < v.codim →
        jet (expr d v.codim .mul (splice .mul v ++ splice .mul s)) c t = jet v (part v c) t * jet s (part s c) t := by
      intro v s d hv hs h1 hgood hcv
      have ev : part v c = c := by unfold part; split_ifs <;> omega
      have es : part s c = 0 := if_pos h1
      obtain ⟨a, rest, e, h⟩ := jet_splice hv hcv t
      rw [ev, es, ← pj_splice hs h1, h]
      rw [e, List.cons_append] at hgood ⊢
      rw [jet_mul hgood hcv, pj_append, mul_assoc]
    obtain ⟨-, h1, d, -, rfl⟩ := mul_ok hr
    split_ifs at hgr hc ⊢ with hle
    · exact prod hf hg (by omega) hgr hc
    · rw [prod hg hf (by omega) hgr hc, mul_comm]
  have e := congrArg (PowerSeries.coeff n) key
  rw [coeff_jet, PowerSeries.coeff_mul, Nat.sum_antidiagonal_eq_sum_range_succ_mk] at e
  have hn : (n.factorial : ℝ) ≠ 0 := by exact_mod_cast n.factorial_ne_zero
  rw [div_eq_iff hn] at e
  rw [e, sum_mul]
  refine sum_congr rfl fun i hi => ?_
  have hi : i ≤ n := by have := mem_range.mp hi; omega
  rw [coeff_jet, coeff_jet, Nat.cast_choose ℝ hi]
  have h1 : (i.factorial : ℝ) ≠ 0 := by exact_mod_cast i.factorial_ne_zero
  have h2 : ((n - i).factorial : ℝ) ≠ 0 := by exact_mod_cast (n - i).factorial_ne_zero
  field_simp

/-- **C06**, the product rule: at every point the derivative of order `n` of a product is the sum of the products of the derivatives of the factors, with binomial coefficients. -/
theorem C06_product_rule (ov : Ov) (f g r : Fn) (hf : Regular f) (hg : Regular g) (hd : f.dom = g.dom) (hr : mul ov f g = .ok r) (n : ℕ)
    (ho : ∀ i ≤ n, OrderOk i f ∧ OrderOk i g) (c : ℕ) (hc : c < r.codim) (t : ℝ) :
    dval r n c t = ∑ i ∈ range (n + 1), (n.choose i : ℝ) * dval f i (part f c) t * dval g (n - i) (part g c) t := by
  obtain ⟨gf, pf⟩ := good_of_regular hf
  obtain ⟨gg, pg⟩ := good_of_regular hg
  have hgr := (good_mul ov gf gg pf pg hd hr).1
  obtain ⟨-, h1, d, -, e⟩ := mul_ok hr
  have hor : OrderOk n r := by rw [e]; split_ifs <;> exact .mul _ _ _
  have hcod : c < f.codim ∨ f.codim = 1 := by
    rw [e] at hc
    split_ifs at hc
    · exact .inl hc
    · exact .inr (by omega)
  have hcod' : c < g.codim ∨ g.codim = 1 := by
    rw [e] at hc
    split_ifs at hc
    · exact .inr (by omega)
    · exact .inl hc
  have hpf : part f c < f.codim := by unfold part; split_ifs <;> omega
  have hpg : part g c < g.codim := by unfold part; split_ifs <;> omega
  rw [dval_eq_dv hgr hor hc, dv_mul ov gf gg pf pg hd hr n hc]
  refine sum_congr rfl fun i hi => ?_
  have hi : i ≤ n := by have := mem_range.mp hi; omega
  rw [dval_eq_dv gf (ho i hi).1 hpf, dval_eq_dv gg (ho (n - i) (by omega)).2 hpg]

/-- The square of the concatenation with a break, at the break. -/
example (n : ℕ) : ∃ r, mul ⟨false, false⟩ kink kink = .ok r ∧ r.codim = 1 ∧
    dval r n 0 1 = ∑ i ∈ range (n + 1), (n.choose i : ℝ) * dval kink i 0 1 * dval kink (n - i) 0 1 := by
  obtain ⟨r, hr, hc⟩ : ∃ r, mul ⟨false, false⟩ kink kink = .ok r ∧ r.codim = 1 := by
    unfold mul
    rw [if_neg (not_not.mpr (sameDomain_of_eq rfl)), if_neg (by decide +revert)]
    exact ⟨_, rfl, rfl⟩
  exact ⟨r, hr, hc, C06_product_rule _ kink kink r kink_regular kink_regular rfl hr n (fun i _ => ⟨kink_order i, kink_order i⟩) 0 (by omega) 1⟩

end GSplines.Props
