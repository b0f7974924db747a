import Verif.Proofs.RateDeriv
import Verif.Proofs.RoundingCurve

/-! # Evaluation of a spline whose coefficients are only approximately known: errors proportional to all errors -/

namespace GSplines.Rounded

open Nd Spec

/-- GSpline.cpp:104-111: the rest of the evaluation once the interval is known, as a function of the time and the coefficients. -/
noncomputable def pieceOf (u : ℝ × ℝ) (g : GSpline) (i : ℕ) (q : ℝ × Vec) : Nd (List ℝ) := do
  let s ← intervalToWindow u g q.1 i
  let buf ← evalOnWindow u g.basis s (vecOf g.tau i)
  (List.range g.codim).mapM fun c =>
    dot u ((List.range g.basis.dim).map fun k => q.2 (i * g.basis.dim * g.codim + g.basis.dim * c + k)) ((List.range g.basis.dim).map buf)

theorem shift_llip (o : ℕ) (v : Vec) : LLip (fun (v : Vec) (k : ℕ) => v (o + k)) v :=
  LLip.of_bound (C := 1) (δ := 1) (by norm_num) (by norm_num) fun a a' _ _ r hr h k => by rw [one_mul]; exact h (o + k)

theorem pieceOf_rate {g : GSpline} (hb : g.basis.Valid) (hp : Positive g) {i : ℕ} (hin : i < g.tau.length) {t : ℝ}
    (hc : Clear g.basis (window (vecOf g.tau i) (t - brk g i))) :
    RateAt (fun u q => pieceOf u g i q) (t, vecOf g.coeffs) ((List.range g.codim).map fun c => curve g i c t) := by
  have hz : vecOf g.tau i ≠ 0 := (vecOf_pos hp.2 hin).ne'
  obtain ⟨buf, hbuf, hv⟩ := evalOnWindow_rate hb (vecOf g.tau i) (t - brk g i) hc
  unfold pieceOf
  refine RateAt.bind (RateAt.comp (x := (t, vecOf g.coeffs)) (f := fun q : ℝ × Vec => q.1) (intervalToWindow_rate hin hz t) (LLip.fst' _)) ?_
  refine RateAt.bind (RateAt.comp (x := ((t, vecOf g.coeffs), window (vecOf g.tau i) (t - brk g i))) (f := fun q : (ℝ × Vec) × ℝ => q.2) hbuf (LLip.snd' _)) ?_
  refine RateAt.mapM _ fun c hcm => ?_
  refine RateAt.comp (F := fun u (q : Vec × Vec) => dot u ((List.range g.basis.dim).map q.1) ((List.range g.basis.dim).map q.2))
    (x := (((t, vecOf g.coeffs), window (vecOf g.tau i) (t - brk g i)), buf))
    (f := fun q : ((ℝ × Vec) × ℝ) × Vec => ((fun k => q.1.1.2 (i * g.basis.dim * g.codim + g.basis.dim * c + k) : Vec), q.2)) ((dot2_rate g.basis.dim _ _).congr ?_)
    (LLip.prodMk (LLip.comp (g := fun (v : Vec) (k : ℕ) => v (i * g.basis.dim * g.codim + g.basis.dim * c + k)) (f := fun q : ((ℝ × Vec) × ℝ) × Vec => q.1.1.2) (shift_llip _ _)
      (by fun_prop)) (by fun_prop))
  unfold curve piece comb Vec.dot
  exact Finset.sum_congr rfl fun k hk => by simp only; rw [hv k (Finset.mem_range.mp hk)]

theorem pieceOf_eq (u : ℝ × ℝ) {g : GSpline} (hcon : Consistent g) {i : ℕ} (hin : i < g.tau.length) (t e : ℝ) {x : List ℝ} (hx : x.length = g.coeffs.length) :
    pieceValue u { g with dom := (g.dom.1, e), coeffs := x } i t = pieceOf u g i (t, vecOf x) := by
  change (do
    let s ← intervalToWindow u g t i
    let tau ← lift (rd g.tau i)
    let buf ← evalOnWindow u g.basis s tau
    (List.range g.codim).mapM fun c => do
      let seg ← lift (segment x (i * g.basis.dim * g.codim + g.basis.dim * c) g.basis.dim)
      dot u seg ((List.range g.basis.dim).map buf) : Nd (List ℝ)) = _
  simp only [rd_ok hin, lift_ok, LawfulMonad.pure_bind]
  have e : ∀ buf : Vec, ((List.range g.codim).mapM fun c => (do
      let seg ← lift (segment x (i * g.basis.dim * g.codim + g.basis.dim * c) g.basis.dim)
      dot u seg ((List.range g.basis.dim).map buf) : Nd ℝ)) = (List.range g.codim).mapM fun c =>
      dot u ((List.range g.basis.dim).map fun k => vecOf x (i * g.basis.dim * g.codim + g.basis.dim * c + k)) ((List.range g.basis.dim).map buf) := by
    intro buf
    refine mapM_congr fun c hcm => ?_
    have hbd := GSpline.coef_bound hcon hin (show c < g.codim by simpa using hcm)
    rw [segment_ok (by omega), lift_ok, LawfulMonad.pure_bind]
    congr 1
    refine List.ext_getElem (by simp; omega) fun k h1 h2 => ?_
    rw [List.length_map, List.length_range] at h2
    rw [List.getElem_map, List.getElem_range]
    unfold vecOf
    rw [List.getD_eq_getElem?_getD, List.getElem?_eq_getElem (by omega), List.getElem_take, List.getElem_drop]
    rfl
  simp only [e]
  rfl

end GSplines.Rounded
