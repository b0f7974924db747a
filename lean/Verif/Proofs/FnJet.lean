import Verif.Proofs.FnIter
import Mathlib.RingTheory.PowerSeries.Derivative

/-!
# The values of all derivatives of a product, at all points

The values that repeated first derivatives of an object take at a point are collected in a power series. The one of a product is the product of those of the factors.
-/

namespace GSplines.Fn

open GSplines Spec PowerSeries

/-- Component `k` of the value at `t` of the object after `n` first derivatives. -/
noncomputable def dv (f : Fn) (n k : ℕ) (t : ℝ) : ℝ :=
  match iterD1 n f with
  | .ok f' => val f' k t
  | .error _ => 0

noncomputable def jet (f : Fn) (k : ℕ) (t : ℝ) : ℝ⟦X⟧ := PowerSeries.mk fun n => dv f n k t / n.factorial

noncomputable def pj (l : List Fn) (t : ℝ) : ℝ⟦X⟧ := (l.map fun b => jet b 0 t).prod

theorem dv_ok {f f' : Fn} {n : ℕ} (h : iterD1 n f = .ok f') (k : ℕ) (t : ℝ) : dv f n k t = val f' k t := by unfold dv; rw [h]

theorem dv_zero (f : Fn) (k : ℕ) (t : ℝ) : dv f 0 k t = val f k t := rfl

theorem dv_succ {f f' : Fn} (h : f.d1 = .ok f') (n k : ℕ) (t : ℝ) : dv f (n + 1) k t = dv f' n k t := by
  unfold dv; rw [iterD1, h]; rfl

theorem coeff_jet (f : Fn) (n k : ℕ) (t : ℝ) : coeff n (jet f k t) = dv f n k t / n.factorial := by unfold jet; rw [coeff_mk]

theorem jet_d1 {f f' : Fn} (h : f.d1 = .ok f') (k : ℕ) (t : ℝ) : d⁄dX ℝ (jet f k t) = jet f' k t := by
  ext n
  rw [coeff_derivative, coeff_jet, coeff_jet, dv_succ h, Nat.factorial_succ]
  have : (n.factorial : ℝ) ≠ 0 := by exact_mod_cast n.factorial_ne_zero
  have : ((n : ℝ) + 1) ≠ 0 := by positivity
  push_cast
  field_simp

theorem coeff_succ (p : ℝ⟦X⟧) (n : ℕ) : coeff (n + 1) p = coeff n (d⁄dX ℝ p) / (n + 1) := by
  rw [coeff_derivative]
  have : ((n : ℝ) + 1) ≠ 0 := by positivity
  field_simp

theorem coeff_zero_mul' (p q : ℝ⟦X⟧) : coeff 0 (p * q) = coeff 0 p * coeff 0 q := by
  rw [coeff_mul]; simp

theorem forall₂_listSum {l l' : List Fn} {n k : ℕ} {t : ℝ} (h : List.Forall₂ (fun a a' => iterD1 n a = .ok a') l l') :
    (l'.map fun a => val a k t).sum = (l.map fun a => dv a n k t).sum := by
  induction h with
  | nil => rfl
  | cons h _ ih => rw [List.map_cons, List.sum_cons, List.map_cons, List.sum_cons, ih, dv_ok h]

theorem dv_sum {d : ℝ × ℝ} {c : ℕ} {l : List Fn} (hg : Good (expr d c .sum l)) (n : ℕ) {k : ℕ} (hk : k < c) (t : ℝ) :
    dv (expr d c .sum l) n k t = (l.map fun a => dv a n k t).sum := by
  obtain ⟨l', e1, e2, e3⟩ := iterD1_lin (by simp) (by simp) n hg
  obtain ⟨ga, ⟨a, rest, rfl, -⟩, hc⟩ := good_args e2
  rw [dv_ok e1, (val_sum d (by simp) (fun a ha => tot_of_good (ga a ha)) hc).2 k hk]
  exact forall₂_listSum e3

theorem dv_unique {d : ℝ × ℝ} {c : ℕ} {a : Fn} (hg : Good (expr d c .unique [a])) (n k : ℕ) (t : ℝ) : dv (expr d c .unique [a]) n k t = dv a n k t := by
  obtain ⟨l', e1, e2, e3⟩ := iterD1_lin (by simp) (by simp) n hg
  obtain ⟨ga, a', rfl, -, rfl⟩ := good_args e2
  cases e3 with
  | cons h _ => rw [dv_ok e1, dv_ok h, val_unique]

theorem coeff_jet_sum {d : ℝ × ℝ} {c : ℕ} {l : List Fn} (hg : Good (expr d c .sum l)) (n : ℕ) {k : ℕ} (hk : k < c) (t : ℝ) :
    coeff n (jet (expr d c .sum l) k t) = (l.map fun a => coeff n (jet a k t)).sum := by
  rw [coeff_jet, dv_sum hg n hk]
  simp only [coeff_jet]
  rw [div_eq_mul_inv, ← List.sum_map_mul_right]
  rfl

theorem pj_append (l r : List Fn) (t : ℝ) : pj (l ++ r) t = pj l t * pj r t := by unfold pj; rw [List.map_append, List.prod_append]

theorem pj_cons (a : Fn) (r : List Fn) (t : ℝ) : pj (a :: r) t = jet a 0 t * pj r t := by unfold pj; rw [List.map_cons, List.prod_cons]

theorem coeff_zero_pj (l : List Fn) (t : ℝ) : coeff 0 (pj l t) = (l.map fun b => val b 0 t).prod := by
  induction l with
  | nil => simp [pj]
  | cons a l ih =>
    rw [pj_cons, coeff_zero_mul', ih, coeff_jet, dv_zero]
    simp

/-- The terms of the product rule. -/
theorem mulTerms_jet {d : ℝ × ℝ} {a : Fn} {n k : ℕ} {t : ℝ}
    (H : ∀ l, Good (expr d a.codim .mul (a :: l)) → coeff n (jet (expr d a.codim .mul (a :: l)) k t) = coeff n (jet a k t * pj l t)) :
    ∀ {p rest rest' : List Fn}, List.Forall₂ (fun b b' => b.d1 = .ok b') rest rest' → (∀ e ∈ mulTerms d a.codim (a :: p) rest rest', Good e) →
    ((mulTerms d a.codim (a :: p) rest rest').map fun e => coeff n (jet e k t)).sum = coeff n (jet a k t * pj p t * d⁄dX ℝ (pj rest t)) := by
  intro p rest rest' h
  induction h generalizing p with
  | nil => intro _; simp [mulTerms, pj]
  | cons h hr ih =>
    rename_i b b' rest rest'
    intro hg
    rw [mulTerms] at hg ⊢
    have e0 : a :: p ++ rest ++ [b'] = a :: (p ++ rest ++ [b']) := by simp
    have e1 : a :: p ++ [b] = a :: (p ++ [b]) := by simp
    rw [e0, e1] at hg ⊢
    rw [List.map_cons, List.sum_cons, H _ (hg _ (by simp)), ih fun e he => hg e (by simp [he])]
    rw [← map_add, pj_cons, Derivation.leibniz, jet_d1 h, pj_append, pj_append, pj_append]
    congr 1
    simp only [smul_eq_mul, pj, List.map_cons, List.map_nil, List.prod_cons, List.prod_nil]
    ring

theorem coeff_jet_mul (n : ℕ) : ∀ {d : ℝ × ℝ} {c : ℕ} {a : Fn} {rest : List Fn}, Good (expr d c .mul (a :: rest)) → ∀ {k : ℕ}, k < c → ∀ t,
    coeff n (jet (expr d c .mul (a :: rest)) k t) = coeff n (jet a k t * pj rest t) := by
  induction n with
  | zero =>
    intro d c a rest hg k hk t
    obtain ⟨ga, a', rest', e, -, rfl, hc⟩ := good_args hg
    cases e
    rw [coeff_jet, dv_zero, coeff_zero_mul', coeff_zero_pj, coeff_jet, dv_zero,
      (val_mul d (tot_of_good (ga a (by simp))) (fun b hb => tot_of_good (ga b (by simp [hb]))) hc).2 k hk]
    simp
  | succ n ih =>
    intro d c a rest hg k hk t
    obtain ⟨ga, a0, rest0, e, -, rfl, hc⟩ := good_args hg
    cases e
    obtain ⟨ds, hds, hF⟩ := exists_mapM (R := fun a b => d1 a = .ok b) fun a ha => (by
      obtain ⟨b, hb, -⟩ := d1_step (ga a ha); exact ⟨b, hb, hb⟩ : ∃ b, d1 a = .ok b ∧ d1 a = .ok b)
    cases hF with
    | cons h hr =>
      rename_i a' rest'
      have e : (expr d a.codim .mul (a :: rest)).d1 = .ok (expr a.dom a.codim .sum (expr a.dom a.codim .mul (a' :: rest) :: mulTerms a.dom a.codim [a] rest rest')) := by
        rw [d1.eq_def]
        dsimp only
        rw [d1s_eq, hds]; rfl
      obtain ⟨f', hf', hst⟩ := d1_step hg
      rw [e] at hf'
      injection hf' with hf'
      subst hf'
      obtain ⟨gs, -⟩ := good_args hst.1
      rw [coeff_succ, coeff_succ, jet_d1 e, coeff_jet_sum hst.1 n hk, List.map_cons, List.sum_cons, ih (gs _ (by simp)) hk,
        mulTerms_jet (p := []) (fun l hl => ih hl hk t) hr fun e he => gs e (by simp [he]), ← map_add, Derivation.leibniz, jet_d1 h]
      congr 2
      simp only [smul_eq_mul, pj, List.map_nil, List.prod_nil]
      ring

theorem jet_mul {d : ℝ × ℝ} {c : ℕ} {a : Fn} {rest : List Fn} (hg : Good (expr d c .mul (a :: rest))) {k : ℕ} (hk : k < c) (t : ℝ) :
    jet (expr d c .mul (a :: rest)) k t = jet a k t * pj rest t := by
  ext n
  exact coeff_jet_mul n hg hk t

theorem jet_flat {f g : Fn} (hf : Good f) (hg : Good g) (sf : ∀ t, Smooth f t) (sg : ∀ t, Smooth g t) (hc : f.codim = g.codim) (hv : ∀ k < f.codim, val f k = val g k) {k : ℕ}
    (hk : k < f.codim) (t : ℝ) : jet f k t = jet g k t := by
  ext n
  rw [coeff_jet, coeff_jet]
  obtain ⟨f', h1, h2, h3, h4, h5⟩ := iterD1_nstep n hf
  obtain ⟨g', g1, g2, g3, g4, g5⟩ := iterD1_nstep n hg
  rw [dv_ok h1, dv_ok g1, (h5 t (sf t)).2 k hk, (g5 t (sg t)).2 k (hc ▸ hk), hv k hk]

theorem jet_clone {f : Fn} (hf : Good f) {k : ℕ} (hk : k < f.codim) (t : ℝ) : jet f.clone k t = jet f k t := by
  cases f with
  | ident d =>
    refine jet_flat (.dil d 1) (.ident d) (fun t => .dil d 1 t) (fun t => .ident d t) rfl (fun j hj => ?_) hk t
    have : j = 0 := by change j < 1 at hj; omega
    subst this
    change val (dil d 1) 0 = val (ident d) 0
    rw [(val_dil d 1).2, (val_ident d).2]
    simp
  | _ => rfl

/-- The factors that an operand contributes to a product. -/
theorem jet_splice {f : Fn} (hf : Good f) {k : ℕ} (hk : k < f.codim) (t : ℝ) :
    ∃ a rest, splice .mul f = a :: rest ∧ jet f k t = jet a k t * pj rest t := by
  cases f with
  | expr d c ty args =>
    rw [splice_expr]
    split_ifs with h
    · rcases h with rfl | rfl
      · obtain ⟨-, a, rest, rfl, -⟩ := good_args hf
        exact ⟨a, rest, rfl, jet_mul hf hk t⟩
      · obtain ⟨-, a, rfl, -⟩ := good_args hf
        refine ⟨a, [], rfl, ?_⟩
        ext n
        rw [pj, List.map_nil, List.prod_nil, mul_one, coeff_jet, coeff_jet, dv_unique hf]
    · exact ⟨_, [], rfl, by simp [pj]⟩
  | _ => exact ⟨_, [], by simp [splice, parts]; rfl, by rw [jet_clone hf hk]; simp [pj]⟩

theorem jet_const (d : ℝ × ℝ) (a : ℝ) (t : ℝ) : jet (const d [a]) 0 t = C a := by
  ext n
  obtain ⟨f', h1, h2, h3, h4, h5⟩ := iterD1_nstep n (.const d [a])
  rw [coeff_jet, dv_ok h1, (h5 t (.const d [a] t)).2 0 (by simp [codim]), val_const1, coeff_C]
  cases n with
  | zero => simp
  | succ n => simp [iteratedDeriv_const]

theorem pj_splice {f : Fn} (hf : Good f) (hc : f.codim = 1) (t : ℝ) : pj (splice .mul f) t = jet f 0 t := by
  obtain ⟨a, rest, e, h⟩ := jet_splice hf (k := 0) (by omega) t
  rw [e, pj_cons, h]

/-- All derivatives of a number times a function. -/
theorem dv_smul {a : ℝ} {f r : Fn} (hf : Good f) (hp : 0 < f.codim) (hr : smul a f = .ok r) (n : ℕ) {k : ℕ} (hk : k < f.codim) (t : ℝ) :
    dv r n k t = a * dv f n k t := by
  have hw : Good (wrap (const f.dom [a])) := good_wrap (.const _ _)
  have hgr : Good r := (good_mul ⟨true, false⟩ hw hf one_pos hp rfl hr).1
  have hs : splice .mul (wrap (const f.dom [a])) = [const f.dom [a]] := rfl
  have key : jet r k t = C a * jet f k t := by
    obtain ⟨-, -, d, -, rfl⟩ := mul_ok hr
    have h1 : (wrap (const f.dom [a])).codim = 1 := rfl
    split_ifs at hgr ⊢ with hle
    · have hc : f.codim = 1 := by omega
      have hk0 : k = 0 := by omega
      subst hk0
      rw [hs] at hgr ⊢
      rw [List.singleton_append] at hgr ⊢
      rw [jet_mul hgr one_pos, jet_const, pj_splice hf hc]
    · obtain ⟨b, rest, e, h⟩ := jet_splice hf hk t
      rw [hs, e] at hgr ⊢
      rw [List.cons_append] at hgr ⊢
      rw [jet_mul hgr hk, h, pj_append, pj_cons (const f.dom [a]), jet_const]
      simp only [pj, List.map_nil, List.prod_nil]
      ring
  have e := congrArg (coeff n) key
  rw [coeff_jet, coeff_C_mul, coeff_jet] at e
  have : (n.factorial : ℝ) ≠ 0 := by exact_mod_cast n.factorial_ne_zero
  field_simp at e
  exact e

end GSplines.Fn
