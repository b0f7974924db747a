import Verif.Proofs.B0101Deriv
import Mathlib.MeasureTheory.Integral.IntervalIntegral.FundThmCalculus
import Mathlib.Analysis.SpecialFunctions.Integrals.Basic

/-! # Basis0101: integrals of products of basis functions -/

namespace GSplines.B0101

open GSplines Real Finset

set_option linter.unusedSimpArgs false

theorem hasDerivAt_exp_neg (u : ℝ) : HasDerivAt (fun u => exp (-u)) (-exp (-u)) u := by
  simpa using (hasDerivAt_neg u).exp

/-- Antiderivatives of the products `w_i w_j`, `i ≤ j`. -/
noncomputable def anti (u : ℝ) : Mat := fun i =>
  match i with
  | 0 => vec6
      ((1 / 8 : ℝ) * ((exp u ^ 2) * (((sin u ^ 2) + (2 * (sin u * cos u))) + (3 * (cos u ^ 2)))))
      ((1 / 8 : ℝ) * ((exp u ^ 2) * (((sin u ^ 2) + (2 * (sin u * cos u))) - (cos u ^ 2))))
      ((1 / 2 : ℝ) * (u + (sin u * cos u)))
      ((1 / 2 : ℝ) * (sin u ^ 2))
      ((1 / 2 : ℝ) * (((u * exp u) * (sin u + cos u)) - (exp u * sin u)))
      ((1 / 2 : ℝ) * (exp u * (sin u + cos u)))
  | 1 => vec6
      ((1 / 8 : ℝ) * ((exp u ^ 2) * (((sin u ^ 2) + (2 * (sin u * cos u))) - (cos u ^ 2))))
      ((1 / 8 : ℝ) * ((exp u ^ 2) * (((3 * (sin u ^ 2)) - (2 * (sin u * cos u))) + (cos u ^ 2))))
      ((1 / 2 : ℝ) * (sin u ^ 2))
      ((1 / 2 : ℝ) * (u - (sin u * cos u)))
      ((1 / 2 : ℝ) * (((u * exp u) * (sin u - cos u)) + (exp u * cos u)))
      ((1 / 2 : ℝ) * (exp u * (sin u - cos u)))
  | 2 => vec6
      ((1 / 2 : ℝ) * (u + (sin u * cos u)))
      ((1 / 2 : ℝ) * (sin u ^ 2))
      (-((1 / 8 : ℝ) * ((exp (-u) ^ 2) * (((sin u ^ 2) - (2 * (sin u * cos u))) + (3 * (cos u ^ 2))))))
      ((1 / 8 : ℝ) * ((exp (-u) ^ 2) * (((sin u ^ 2) - (2 * (sin u * cos u))) - (cos u ^ 2))))
      ((1 / 2 : ℝ) * (((u * exp (-u)) * (sin u - cos u)) + (exp (-u) * sin u)))
      ((1 / 2 : ℝ) * (exp (-u) * (sin u - cos u)))
  | 3 => vec6
      ((1 / 2 : ℝ) * (sin u ^ 2))
      ((1 / 2 : ℝ) * (u - (sin u * cos u)))
      ((1 / 8 : ℝ) * ((exp (-u) ^ 2) * (((sin u ^ 2) - (2 * (sin u * cos u))) - (cos u ^ 2))))
      (-((1 / 8 : ℝ) * ((exp (-u) ^ 2) * (((3 * (sin u ^ 2)) + (2 * (sin u * cos u))) + (cos u ^ 2)))))
      (-((1 / 2 : ℝ) * (((u * exp (-u)) * (sin u + cos u)) + (exp (-u) * cos u))))
      (-((1 / 2 : ℝ) * (exp (-u) * (sin u + cos u))))
  | 4 => vec6
      ((1 / 2 : ℝ) * (((u * exp u) * (sin u + cos u)) - (exp u * sin u)))
      ((1 / 2 : ℝ) * (((u * exp u) * (sin u - cos u)) + (exp u * cos u)))
      ((1 / 2 : ℝ) * (((u * exp (-u)) * (sin u - cos u)) + (exp (-u) * sin u)))
      (-((1 / 2 : ℝ) * (((u * exp (-u)) * (sin u + cos u)) + (exp (-u) * cos u))))
      ((1 / 3 : ℝ) * (u ^ 3))
      ((1 / 2 : ℝ) * (u ^ 2))
  | 5 => vec6
      ((1 / 2 : ℝ) * (exp u * (sin u + cos u)))
      ((1 / 2 : ℝ) * (exp u * (sin u - cos u)))
      ((1 / 2 : ℝ) * (exp (-u) * (sin u - cos u)))
      (-((1 / 2 : ℝ) * (exp (-u) * (sin u + cos u))))
      ((1 / 2 : ℝ) * (u ^ 2))
      (u)
  | _ => fun _ => 0

theorem wv2 (u : ℝ) : wv u = vec6 (exp u * cos u) (exp u * sin u) (cos u * exp (-u)) (sin u * exp (-u)) u 1 := by
  rw [wv, exp_neg, div_eq_mul_inv, div_eq_mul_inv]

theorem anti_0_0 (u : ℝ) : HasDerivAt (fun u => anti u 0 0) (wv u 0 * wv u 0) u := by
  have h1 := sin_sq_add_cos_sq u
  have h2 : exp u * exp (-u) = 1 := by rw [← exp_add]; simp
  refine HasDerivAt.congr_deriv ((((hasDerivAt_exp u).pow 2).mul ((((hasDerivAt_sin u).pow 2).add (((hasDerivAt_sin u).mul (hasDerivAt_cos u)).const_mul 2)).add (((hasDerivAt_cos u).pow 2).const_mul 3))).const_mul (1 / 8 : ℝ)) ?_
  rw [wv2]
  simp only [vec6, id, Pi.add_apply, Pi.mul_apply, Pi.sub_apply, Pi.pow_apply, Pi.neg_apply, Nat.cast_ofNat]
  generalize exp u = e at *
  generalize exp (-u) = f at *
  generalize sin u = s at *
  generalize cos u = c at *
  grind

theorem anti_0_1 (u : ℝ) : HasDerivAt (fun u => anti u 0 1) (wv u 0 * wv u 1) u := by
  have h1 := sin_sq_add_cos_sq u
  have h2 : exp u * exp (-u) = 1 := by rw [← exp_add]; simp
  refine HasDerivAt.congr_deriv ((((hasDerivAt_exp u).pow 2).mul ((((hasDerivAt_sin u).pow 2).add (((hasDerivAt_sin u).mul (hasDerivAt_cos u)).const_mul 2)).sub ((hasDerivAt_cos u).pow 2))).const_mul (1 / 8 : ℝ)) ?_
  rw [wv2]
  simp only [vec6, id, Pi.add_apply, Pi.mul_apply, Pi.sub_apply, Pi.pow_apply, Pi.neg_apply, Nat.cast_ofNat]
  generalize exp u = e at *
  generalize exp (-u) = f at *
  generalize sin u = s at *
  generalize cos u = c at *
  grind

theorem anti_0_2 (u : ℝ) : HasDerivAt (fun u => anti u 0 2) (wv u 0 * wv u 2) u := by
  have h1 := sin_sq_add_cos_sq u
  have h2 : exp u * exp (-u) = 1 := by rw [← exp_add]; simp
  refine HasDerivAt.congr_deriv (((hasDerivAt_id u).add ((hasDerivAt_sin u).mul (hasDerivAt_cos u))).const_mul (1 / 2 : ℝ)) ?_
  rw [wv2]
  simp only [vec6, id, Pi.add_apply, Pi.mul_apply, Pi.sub_apply, Pi.pow_apply, Pi.neg_apply, Nat.cast_ofNat]
  generalize exp u = e at *
  generalize exp (-u) = f at *
  generalize sin u = s at *
  generalize cos u = c at *
  grind

theorem anti_0_3 (u : ℝ) : HasDerivAt (fun u => anti u 0 3) (wv u 0 * wv u 3) u := by
  have h1 := sin_sq_add_cos_sq u
  have h2 : exp u * exp (-u) = 1 := by rw [← exp_add]; simp
  refine HasDerivAt.congr_deriv (((hasDerivAt_sin u).pow 2).const_mul (1 / 2 : ℝ)) ?_
  rw [wv2]
  simp only [vec6, id, Pi.add_apply, Pi.mul_apply, Pi.sub_apply, Pi.pow_apply, Pi.neg_apply, Nat.cast_ofNat]
  generalize exp u = e at *
  generalize exp (-u) = f at *
  generalize sin u = s at *
  generalize cos u = c at *
  grind

theorem anti_0_4 (u : ℝ) : HasDerivAt (fun u => anti u 0 4) (wv u 0 * wv u 4) u := by
  have h1 := sin_sq_add_cos_sq u
  have h2 : exp u * exp (-u) = 1 := by rw [← exp_add]; simp
  refine HasDerivAt.congr_deriv (((((hasDerivAt_id u).mul (hasDerivAt_exp u)).mul ((hasDerivAt_sin u).add (hasDerivAt_cos u))).sub ((hasDerivAt_exp u).mul (hasDerivAt_sin u))).const_mul (1 / 2 : ℝ)) ?_
  rw [wv2]
  simp only [vec6, id, Pi.add_apply, Pi.mul_apply, Pi.sub_apply, Pi.pow_apply, Pi.neg_apply, Nat.cast_ofNat]
  generalize exp u = e at *
  generalize exp (-u) = f at *
  generalize sin u = s at *
  generalize cos u = c at *
  grind

theorem anti_0_5 (u : ℝ) : HasDerivAt (fun u => anti u 0 5) (wv u 0 * wv u 5) u := by
  have h1 := sin_sq_add_cos_sq u
  have h2 : exp u * exp (-u) = 1 := by rw [← exp_add]; simp
  refine HasDerivAt.congr_deriv (((hasDerivAt_exp u).mul ((hasDerivAt_sin u).add (hasDerivAt_cos u))).const_mul (1 / 2 : ℝ)) ?_
  rw [wv2]
  simp only [vec6, id, Pi.add_apply, Pi.mul_apply, Pi.sub_apply, Pi.pow_apply, Pi.neg_apply, Nat.cast_ofNat]
  generalize exp u = e at *
  generalize exp (-u) = f at *
  generalize sin u = s at *
  generalize cos u = c at *
  grind

theorem anti_1_1 (u : ℝ) : HasDerivAt (fun u => anti u 1 1) (wv u 1 * wv u 1) u := by
  have h1 := sin_sq_add_cos_sq u
  have h2 : exp u * exp (-u) = 1 := by rw [← exp_add]; simp
  refine HasDerivAt.congr_deriv ((((hasDerivAt_exp u).pow 2).mul (((((hasDerivAt_sin u).pow 2).const_mul 3).sub (((hasDerivAt_sin u).mul (hasDerivAt_cos u)).const_mul 2)).add ((hasDerivAt_cos u).pow 2))).const_mul (1 / 8 : ℝ)) ?_
  rw [wv2]
  simp only [vec6, id, Pi.add_apply, Pi.mul_apply, Pi.sub_apply, Pi.pow_apply, Pi.neg_apply, Nat.cast_ofNat]
  generalize exp u = e at *
  generalize exp (-u) = f at *
  generalize sin u = s at *
  generalize cos u = c at *
  grind

theorem anti_1_2 (u : ℝ) : HasDerivAt (fun u => anti u 1 2) (wv u 1 * wv u 2) u := by
  have h1 := sin_sq_add_cos_sq u
  have h2 : exp u * exp (-u) = 1 := by rw [← exp_add]; simp
  refine HasDerivAt.congr_deriv (((hasDerivAt_sin u).pow 2).const_mul (1 / 2 : ℝ)) ?_
  rw [wv2]
  simp only [vec6, id, Pi.add_apply, Pi.mul_apply, Pi.sub_apply, Pi.pow_apply, Pi.neg_apply, Nat.cast_ofNat]
  generalize exp u = e at *
  generalize exp (-u) = f at *
  generalize sin u = s at *
  generalize cos u = c at *
  grind

theorem anti_1_3 (u : ℝ) : HasDerivAt (fun u => anti u 1 3) (wv u 1 * wv u 3) u := by
  have h1 := sin_sq_add_cos_sq u
  have h2 : exp u * exp (-u) = 1 := by rw [← exp_add]; simp
  refine HasDerivAt.congr_deriv (((hasDerivAt_id u).sub ((hasDerivAt_sin u).mul (hasDerivAt_cos u))).const_mul (1 / 2 : ℝ)) ?_
  rw [wv2]
  simp only [vec6, id, Pi.add_apply, Pi.mul_apply, Pi.sub_apply, Pi.pow_apply, Pi.neg_apply, Nat.cast_ofNat]
  generalize exp u = e at *
  generalize exp (-u) = f at *
  generalize sin u = s at *
  generalize cos u = c at *
  grind

theorem anti_1_4 (u : ℝ) : HasDerivAt (fun u => anti u 1 4) (wv u 1 * wv u 4) u := by
  have h1 := sin_sq_add_cos_sq u
  have h2 : exp u * exp (-u) = 1 := by rw [← exp_add]; simp
  refine HasDerivAt.congr_deriv (((((hasDerivAt_id u).mul (hasDerivAt_exp u)).mul ((hasDerivAt_sin u).sub (hasDerivAt_cos u))).add ((hasDerivAt_exp u).mul (hasDerivAt_cos u))).const_mul (1 / 2 : ℝ)) ?_
  rw [wv2]
  simp only [vec6, id, Pi.add_apply, Pi.mul_apply, Pi.sub_apply, Pi.pow_apply, Pi.neg_apply, Nat.cast_ofNat]
  generalize exp u = e at *
  generalize exp (-u) = f at *
  generalize sin u = s at *
  generalize cos u = c at *
  grind

theorem anti_1_5 (u : ℝ) : HasDerivAt (fun u => anti u 1 5) (wv u 1 * wv u 5) u := by
  have h1 := sin_sq_add_cos_sq u
  have h2 : exp u * exp (-u) = 1 := by rw [← exp_add]; simp
  refine HasDerivAt.congr_deriv (((hasDerivAt_exp u).mul ((hasDerivAt_sin u).sub (hasDerivAt_cos u))).const_mul (1 / 2 : ℝ)) ?_
  rw [wv2]
  simp only [vec6, id, Pi.add_apply, Pi.mul_apply, Pi.sub_apply, Pi.pow_apply, Pi.neg_apply, Nat.cast_ofNat]
  generalize exp u = e at *
  generalize exp (-u) = f at *
  generalize sin u = s at *
  generalize cos u = c at *
  grind

theorem anti_2_2 (u : ℝ) : HasDerivAt (fun u => anti u 2 2) (wv u 2 * wv u 2) u := by
  have h1 := sin_sq_add_cos_sq u
  have h2 : exp u * exp (-u) = 1 := by rw [← exp_add]; simp
  refine HasDerivAt.congr_deriv ((((hasDerivAt_exp_neg u).pow 2).mul ((((hasDerivAt_sin u).pow 2).sub (((hasDerivAt_sin u).mul (hasDerivAt_cos u)).const_mul 2)).add (((hasDerivAt_cos u).pow 2).const_mul 3))).const_mul (1 / 8 : ℝ)).neg ?_
  rw [wv2]
  simp only [vec6, id, Pi.add_apply, Pi.mul_apply, Pi.sub_apply, Pi.pow_apply, Pi.neg_apply, Nat.cast_ofNat]
  generalize exp u = e at *
  generalize exp (-u) = f at *
  generalize sin u = s at *
  generalize cos u = c at *
  grind

theorem anti_2_3 (u : ℝ) : HasDerivAt (fun u => anti u 2 3) (wv u 2 * wv u 3) u := by
  have h1 := sin_sq_add_cos_sq u
  have h2 : exp u * exp (-u) = 1 := by rw [← exp_add]; simp
  refine HasDerivAt.congr_deriv ((((hasDerivAt_exp_neg u).pow 2).mul ((((hasDerivAt_sin u).pow 2).sub (((hasDerivAt_sin u).mul (hasDerivAt_cos u)).const_mul 2)).sub ((hasDerivAt_cos u).pow 2))).const_mul (1 / 8 : ℝ)) ?_
  rw [wv2]
  simp only [vec6, id, Pi.add_apply, Pi.mul_apply, Pi.sub_apply, Pi.pow_apply, Pi.neg_apply, Nat.cast_ofNat]
  generalize exp u = e at *
  generalize exp (-u) = f at *
  generalize sin u = s at *
  generalize cos u = c at *
  grind

theorem anti_2_4 (u : ℝ) : HasDerivAt (fun u => anti u 2 4) (wv u 2 * wv u 4) u := by
  have h1 := sin_sq_add_cos_sq u
  have h2 : exp u * exp (-u) = 1 := by rw [← exp_add]; simp
  refine HasDerivAt.congr_deriv (((((hasDerivAt_id u).mul (hasDerivAt_exp_neg u)).mul ((hasDerivAt_sin u).sub (hasDerivAt_cos u))).add ((hasDerivAt_exp_neg u).mul (hasDerivAt_sin u))).const_mul (1 / 2 : ℝ)) ?_
  rw [wv2]
  simp only [vec6, id, Pi.add_apply, Pi.mul_apply, Pi.sub_apply, Pi.pow_apply, Pi.neg_apply, Nat.cast_ofNat]
  generalize exp u = e at *
  generalize exp (-u) = f at *
  generalize sin u = s at *
  generalize cos u = c at *
  grind

theorem anti_2_5 (u : ℝ) : HasDerivAt (fun u => anti u 2 5) (wv u 2 * wv u 5) u := by
  have h1 := sin_sq_add_cos_sq u
  have h2 : exp u * exp (-u) = 1 := by rw [← exp_add]; simp
  refine HasDerivAt.congr_deriv (((hasDerivAt_exp_neg u).mul ((hasDerivAt_sin u).sub (hasDerivAt_cos u))).const_mul (1 / 2 : ℝ)) ?_
  rw [wv2]
  simp only [vec6, id, Pi.add_apply, Pi.mul_apply, Pi.sub_apply, Pi.pow_apply, Pi.neg_apply, Nat.cast_ofNat]
  generalize exp u = e at *
  generalize exp (-u) = f at *
  generalize sin u = s at *
  generalize cos u = c at *
  grind

theorem anti_3_3 (u : ℝ) : HasDerivAt (fun u => anti u 3 3) (wv u 3 * wv u 3) u := by
  have h1 := sin_sq_add_cos_sq u
  have h2 : exp u * exp (-u) = 1 := by rw [← exp_add]; simp
  refine HasDerivAt.congr_deriv ((((hasDerivAt_exp_neg u).pow 2).mul (((((hasDerivAt_sin u).pow 2).const_mul 3).add (((hasDerivAt_sin u).mul (hasDerivAt_cos u)).const_mul 2)).add ((hasDerivAt_cos u).pow 2))).const_mul (1 / 8 : ℝ)).neg ?_
  rw [wv2]
  simp only [vec6, id, Pi.add_apply, Pi.mul_apply, Pi.sub_apply, Pi.pow_apply, Pi.neg_apply, Nat.cast_ofNat]
  generalize exp u = e at *
  generalize exp (-u) = f at *
  generalize sin u = s at *
  generalize cos u = c at *
  grind

theorem anti_3_4 (u : ℝ) : HasDerivAt (fun u => anti u 3 4) (wv u 3 * wv u 4) u := by
  have h1 := sin_sq_add_cos_sq u
  have h2 : exp u * exp (-u) = 1 := by rw [← exp_add]; simp
  refine HasDerivAt.congr_deriv (((((hasDerivAt_id u).mul (hasDerivAt_exp_neg u)).mul ((hasDerivAt_sin u).add (hasDerivAt_cos u))).add ((hasDerivAt_exp_neg u).mul (hasDerivAt_cos u))).const_mul (1 / 2 : ℝ)).neg ?_
  rw [wv2]
  simp only [vec6, id, Pi.add_apply, Pi.mul_apply, Pi.sub_apply, Pi.pow_apply, Pi.neg_apply, Nat.cast_ofNat]
  generalize exp u = e at *
  generalize exp (-u) = f at *
  generalize sin u = s at *
  generalize cos u = c at *
  grind

theorem anti_3_5 (u : ℝ) : HasDerivAt (fun u => anti u 3 5) (wv u 3 * wv u 5) u := by
  have h1 := sin_sq_add_cos_sq u
  have h2 : exp u * exp (-u) = 1 := by rw [← exp_add]; simp
  refine HasDerivAt.congr_deriv (((hasDerivAt_exp_neg u).mul ((hasDerivAt_sin u).add (hasDerivAt_cos u))).const_mul (1 / 2 : ℝ)).neg ?_
  rw [wv2]
  simp only [vec6, id, Pi.add_apply, Pi.mul_apply, Pi.sub_apply, Pi.pow_apply, Pi.neg_apply, Nat.cast_ofNat]
  generalize exp u = e at *
  generalize exp (-u) = f at *
  generalize sin u = s at *
  generalize cos u = c at *
  grind

theorem anti_4_4 (u : ℝ) : HasDerivAt (fun u => anti u 4 4) (wv u 4 * wv u 4) u := by
  have h1 := sin_sq_add_cos_sq u
  have h2 : exp u * exp (-u) = 1 := by rw [← exp_add]; simp
  refine HasDerivAt.congr_deriv (((hasDerivAt_id u).pow 3).const_mul (1 / 3 : ℝ)) ?_
  rw [wv2]
  simp only [vec6, id, Pi.add_apply, Pi.mul_apply, Pi.sub_apply, Pi.pow_apply, Pi.neg_apply, Nat.cast_ofNat]
  generalize exp u = e at *
  generalize exp (-u) = f at *
  generalize sin u = s at *
  generalize cos u = c at *
  grind

theorem anti_4_5 (u : ℝ) : HasDerivAt (fun u => anti u 4 5) (wv u 4 * wv u 5) u := by
  have h1 := sin_sq_add_cos_sq u
  have h2 : exp u * exp (-u) = 1 := by rw [← exp_add]; simp
  refine HasDerivAt.congr_deriv (((hasDerivAt_id u).pow 2).const_mul (1 / 2 : ℝ)) ?_
  rw [wv2]
  simp only [vec6, id, Pi.add_apply, Pi.mul_apply, Pi.sub_apply, Pi.pow_apply, Pi.neg_apply, Nat.cast_ofNat]
  generalize exp u = e at *
  generalize exp (-u) = f at *
  generalize sin u = s at *
  generalize cos u = c at *
  grind

theorem anti_5_5 (u : ℝ) : HasDerivAt (fun u => anti u 5 5) (wv u 5 * wv u 5) u := by
  have h1 := sin_sq_add_cos_sq u
  have h2 : exp u * exp (-u) = 1 := by rw [← exp_add]; simp
  refine HasDerivAt.congr_deriv (hasDerivAt_id u) ?_
  rw [wv2]
  simp only [vec6, id, Pi.add_apply, Pi.mul_apply, Pi.sub_apply, Pi.pow_apply, Pi.neg_apply, Nat.cast_ofNat]
  generalize exp u = e at *
  generalize exp (-u) = f at *
  generalize sin u = s at *
  generalize cos u = c at *
  grind

end GSplines.B0101
