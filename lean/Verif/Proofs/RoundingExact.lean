import Verif.Proofs.RoundingEval

/-! # Without rounding errors the rounded programs compute what the exact ones compute; no access is out of range -/

namespace GSplines.Rounded

open Nd Spec

variable {α β : Type}

/-- One possible result. -/
def Has (p : Nd α) (a : α) : Prop := p (.ok a)

theorem Has.pure (a : α) : Has (Pure.pure a : Nd α) a := rfl

theorem Has.bind {p : Nd α} {f : α → Nd β} {a : α} {b : β} (h : Has p a) (hf : Has (f a) b) : Has (p >>= f) b := .inr ⟨a, h, hf⟩

theorem Has.near {u : ℝ × ℝ} (h1 : 0 ≤ u.1) (h2 : 0 ≤ u.2) (x : ℝ) : Has (Nd.near u x) x :=
  ⟨x, rfl, by rw [sub_self, abs_zero]; positivity⟩

theorem Has.quot {u : ℝ × ℝ} (h1 : 0 ≤ u.1) (h2 : 0 ≤ u.2) (x : ℝ) {y : ℝ} (hy : y ≠ 0) : Has (Nd.quot u x y) (x / y) := by
  refine Has.bind (a := x / y) ?_ (Has.near h1 h2 _)
  change _ = fdiv x y
  unfold fdiv
  rw [if_neg hy]

theorem Has.lift (a : α) : Has (Nd.lift (.ok a)) a := rfl

theorem SumOf.exact {u : ℝ × ℝ} (h1 : 0 ≤ u.1) (h2 : 0 ≤ u.2) : ∀ l : List ℝ, SumOf u l l.sum
  | [] => .nil
  | [x] => by simpa using SumOf.one x
  | x :: y :: l => by
    refine SumOf.split (l₁ := [x]) (l₂ := y :: l) (.refl _) (by simp) (by simp) (.one x) (SumOf.exact h1 h2 (y :: l)) ?_
    rw [List.sum_cons, sub_self, abs_zero]; positivity

theorem Has.sum {u : ℝ × ℝ} (h1 : 0 ≤ u.1) (h2 : 0 ≤ u.2) (l : List ℝ) : Has (Nd.sum u l) l.sum := ⟨_, rfl, SumOf.exact h1 h2 l⟩

theorem Has.mapM {ι : Type} {l : List ι} {f : ι → Nd β} {g : ι → β} (h : ∀ a ∈ l, Has (f a) (g a)) : Has (l.mapM f) (l.map g) := by
  induction l with
  | nil => rw [List.mapM_nil]; exact Has.pure _
  | cons a l ih =>
    rw [List.mapM_cons]
    exact Has.bind (h a (by simp)) (Has.bind (ih fun b hb => h b (by simp [hb])) (Has.pure _))

theorem Has.loop {σ : Type} {a b : ℕ} {body : ℕ → σ → Nd σ} {exact : ℕ → σ → σ} (h : ∀ i, a ≤ i → i < b → ∀ s, Has (body i s) (exact i s)) (s : σ) :
    Has (Nd.loop a b body s) (forLoop a b exact s) := by
  unfold Nd.loop forLoop
  have h' : ∀ i ∈ List.range' a (b - a), ∀ s, Has (body i s) (exact i s) := by
    intro i hi
    have := List.mem_range'.mp hi
    exact h i (by omega) (by omega)
  revert s
  generalize List.range' a (b - a) = l at h'
  induction l with
  | nil => intro s; exact Has.pure _
  | cons i l ih =>
    intro s
    rw [List.foldlM_cons, List.foldl_cons]
    exact Has.bind (h' i (by simp) s) (ih (fun j hj => h' j (by simp [hj])) _)

section
variable {u : ℝ × ℝ} (h1 : 0 ≤ u.1) (h2 : 0 ≤ u.2)
include h1 h2

theorem legendre_has {d : ℕ} (hd : 2 ≤ d) (s : ℝ) : Has (legendre u d s) (Legendre.values d s) := by
  unfold legendre
  rw [if_neg (by omega)]
  refine Has.loop (fun i _ _ b => ?_) _
  unfold legendreBody
  exact .bind (.quot h1 h2 _ (by positivity)) (.bind (.near h1 h2 _) (.bind (.near h1 h2 _) (.bind (.near h1 h2 _) (.bind (.near h1 h2 _) (.bind (.near h1 h2 _) (.pure _))))))

theorem b0101_has {a : ℝ} (ha : a < 1) (s tau : ℝ) : Has (b0101 u a s tau) (B0101.evalOnWindow a s tau) := by
  unfold b0101
  have hd : (0 : ℝ) < 1 - a := by linarith
  exact .bind (.near h1 h2 _) (.bind (.near h1 h2 _) (.bind (.near h1 h2 _) (.bind (.near h1 h2 _) (.bind (.near h1 h2 _) (.bind (.near h1 h2 _)
    (.bind (.quot h1 h2 _ (Real.rpow_pos_of_pos hd _).ne') (.bind (.near h1 h2 _) (.bind (.near h1 h2 _) (.bind (.near h1 h2 _) (.bind (.near h1 h2 _) (.bind (.near h1 h2 _)
    (.bind (.near h1 h2 _) (.bind (.near h1 h2 _) (.bind (.quot h1 h2 _ (Real.exp_ne_zero _)) (.bind (.quot h1 h2 _ (Real.exp_ne_zero _)) (.pure _))))))))))))))))

theorem almostEqual_has (a b eps : ℝ) : Has (almostEqual u a b eps) (Lagrange.almostEqual a b eps) := by
  unfold almostEqual Lagrange.almostEqual
  refine .bind (.near h1 h2 _) ?_
  split_ifs
  · convert Has.pure (decide (|a - b| < eps))
  · refine .bind (.near h1 h2 _) (.bind (.near h1 h2 _) ?_)
    convert Has.pure (decide (|a - b| < eps * |a| ∧ |a - b| < eps * |b|))

theorem findNode_has (x : Vec) (s : ℝ) : ∀ l : List ℕ, Has (findNode u x s l) (l.find? fun j => Lagrange.almostEqual s (x j) tol9)
  | [] => Has.pure _
  | j :: js => by
    unfold findNode
    refine .bind (almostEqual_has h1 h2 _ _ _) ?_
    cases h : Lagrange.almostEqual s (x j) tol9
    · rw [List.find?_cons_of_neg (by simp [h])]
      exact findNode_has x s js
    · rw [List.find?_cons_of_pos (by simp [h])]
      exact Has.pure _

theorem baryWeights_has {n : ℕ} {x : Vec} (h : Lagrange.Distinct n x) : Has (baryWeights u n x) (exactW n x) := by
  unfold baryWeights
  refine Has.bind (a := Lagrange.baryProducts n x) ?_ ?_
  · refine Has.loop (fun j _ _ r => Has.loop (fun k _ _ r => ?_) _) _
    unfold baryStep
    exact .bind (.near h1 h2 _) (.bind (.near h1 h2 _) (.bind (.near h1 h2 _) (.bind (.near h1 h2 _) (.pure _))))
  · exact Has.loop (exact := fun k w => setAt w k (1 / Lagrange.baryProducts n x k)) (fun k _ hk w => .bind (.quot h1 h2 _ (products_ne_zero h hk)) (.pure _)) _

theorem baryFormula_has {n : ℕ} {x : Vec} (h : Lagrange.Distinct n x) {s : ℝ} (hs : ∀ j < n, s ≠ x j) :
    ∃ v, Has (baryFormula u n x (exactW n x) s) v ∧ ∀ j < n, v j = (_root_.Lagrange.basis (Finset.range n) x j).eval s := by
  generalize hst : forLoop 0 n (fun j (st : Vec × ℝ) => (setAt st.1 j (exactW n x j / (s - x j)), st.2 + exactW n x j / (s - x j))) ((fun _ => 0), 0) = st
  obtain ⟨k1, hne⟩ := book_loop h hs hst
  refine ⟨forLoop 0 n (fun j v => setAt v j (st.1 j / st.2)) fun _ => 0, ?_, fun j hj => by rw [fill_loop (f := fun j => st.1 j / st.2) hj, k1 j hj]⟩
  unfold baryFormula
  refine Has.bind (a := st) ?_ (Has.loop (exact := fun j v => setAt v j (st.1 j / st.2)) (fun j _ hj v => .bind (.quot h1 h2 _ (hne j hj)) (.pure _)) _)
  rw [← hst]
  exact Has.loop (exact := fun j (st : Vec × ℝ) => (setAt st.1 j (exactW n x j / (s - x j)), st.2 + exactW n x j / (s - x j)))
    (fun j _ hj st => .bind (.near h1 h2 _) (.bind (.quot h1 h2 _ (sub_ne_zero.mpr (hs j hj))) (Has.bind (.near h1 h2 _) (Has.pure (α := Vec × ℝ) (_, _))))) _

theorem lagrange_has {n : ℕ} {x : Vec} (h : Lagrange.Distinct n x) (s tau : ℝ) :
    ∃ v, Has (lagrange u n x (exactW n x) s) v ∧ ∀ j < n, v j = Lagrange.evalOnWindow n x s tau j := by
  unfold lagrange Lagrange.evalOnWindow
  have hf := findNode_has h1 h2 x s (List.range n)
  cases hfind : (List.range n).find? (fun j => Lagrange.almostEqual s (x j) tol9) with
  | some j0 =>
    rw [hfind] at hf
    exact ⟨_, Has.bind hf (Has.pure _), fun j _ => rfl⟩
  | none =>
    rw [hfind] at hf
    have hne : ∀ k < n, s ≠ x k := by
      intro k hk e
      have := List.find?_eq_none.mp hfind k (by simpa using hk)
      rw [e] at this
      exact this (Lagrange.almostEqual_self _ _ Props.tol9_pos)
    obtain ⟨v, hv, hv'⟩ := baryFormula_has h1 h2 h hne
    refine ⟨v, Has.bind hf hv, fun j hj => ?_⟩
    obtain ⟨b1, b2⟩ := Lagrange.baryLoop_spec n x s
    simp only
    rw [hv' j hj, b1 j hj, b2]
    exact (Lagrange.bary_eq_card h hne hj).symm

theorem evalOnWindow_has {b : Basis} (hb : b.Valid) (s tau : ℝ) {buf : Vec} (hbuf : b.evalOnWindow s tau = .ok buf) :
    ∃ v, Has (evalOnWindow u b s tau) v ∧ ∀ j < b.dim, v j = buf j := by
  cases b with
  | legendre d =>
    simp only [Basis.evalOnWindow, Legendre.evalOnWindow, if_neg (show ¬ d < 2 from not_lt.mpr hb)] at hbuf
    cases hbuf
    exact ⟨_, legendre_has h1 h2 hb s, fun _ _ => rfl⟩
  | b0101 a =>
    cases hbuf
    exact ⟨_, b0101_has h1 h2 hb.2 s tau, fun _ _ => rfl⟩
  | lagrange x =>
    cases hbuf
    have hb' : Props.Separated x.length (vecOf x) := hb
    obtain ⟨v, hv, hv'⟩ := lagrange_has h1 h2 (n := x.length) hb'.distinct s tau
    exact ⟨v, Has.bind (baryWeights_has h1 h2 hb'.distinct) hv, hv'⟩

theorem scan_has (t : ℝ) : ∀ (l : List ℝ) (i : ℕ) (left : ℝ), Has (scan u t i left l) (GSpline.scan t i left l)
  | [], _, _ => Has.pure _
  | x :: xs, i, left => by
    unfold scan GSpline.scan
    refine .bind (.near h1 h2 _) ?_
    split_ifs
    · exact Has.pure _
    · exact scan_has t xs _ _

theorem getInterval_has (g : GSpline) (t : ℝ) : Has (getInterval u g t) (g.getInterval t) := by
  unfold getInterval GSpline.getInterval
  by_cases h : t ≤ g.dom.1
  · rw [if_pos h, if_pos h]; exact Has.pure _
  · rw [if_neg h, if_neg h]
    refine .bind (scan_has h1 h2 t _ _ _) ?_
    cases GSpline.scan t 0 g.dom.1 g.tau <;> exact Has.pure _

theorem dot_has {n : ℕ} {seg : List ℝ} (hs : seg.length = n) (buf : Vec) : Has (dot u seg ((List.range n).map buf)) (Vec.dot n (vecOf seg) buf) := by
  unfold dot
  refine .bind (Has.mapM (g := fun x => x) fun x _ => Has.near h1 h2 x) ?_
  convert Has.sum h1 h2 _ using 1
  rw [List.map_id']
  unfold Vec.dot
  change ((List.range n).map fun k => vecOf seg k * buf k).sum = _
  congr 1
  refine List.ext_getElem (by simp [hs]) fun k h1 h2 => ?_
  simp only [List.getElem_map, List.getElem_range, List.getElem_zipWith]
  unfold vecOf
  rw [List.getD_eq_getElem?_getD, List.getElem?_eq_getElem (by simp at h1; omega)]
  rfl

/-- The exact value is one of the possible results. -/
theorem value_has {g : GSpline} (hb : g.basis.Valid) (hcon : Consistent g) (hne : g.tau ≠ []) (hz : 0 ∉ g.tau) (t : ℝ) : value u g t (g.value t) := by
  have hin := GSpline.getInterval_lt g hne t
  have hzi := GSpline.vecOf_ne_zero hz hin
  obtain ⟨buf, hbuf⟩ := GSpline.evalOnWindow_total hb (window (vecOf g.tau (g.getInterval t)) (t - brk g (g.getInterval t))) (vecOf g.tau (g.getInterval t))
  rw [GSpline.value_ok hcon rfl hin hzi hbuf]
  obtain ⟨v, hv, hv'⟩ := evalOnWindow_has h1 h2 hb _ _ hbuf
  have hi := getInterval_has h1 h2 g t
  generalize g.getInterval t = i at *
  unfold value
  refine Has.bind hi ?_
  rw [rd_ok hin, lift_ok]
  refine Has.bind (a := window (vecOf g.tau i) (t - brk g i)) ?_ ?_
  · unfold intervalToWindow
    rw [segment_ok (show 0 + i ≤ g.tau.length by omega), rd_ok hin]
    exact .bind (.lift _) (.bind (.lift _) (.bind (.sum h1 h2 _) (.bind (.near h1 h2 _) (.bind (.near h1 h2 _) (.bind (.near h1 h2 _) (.bind (.quot h1 h2 _ hzi) (.near h1 h2 _)))))))
  rw [LawfulMonad.pure_bind]
  refine Has.bind hv (Has.mapM fun c hc => ?_)
  have hcc : c < g.codim := List.mem_range.mp hc
  have hbd := GSpline.coef_bound hcon hin hcc
  unfold GSpline.coefficientSegment
  rw [segment_ok hbd]
  refine Has.bind (Has.lift _) ?_
  have hlen : ((g.coeffs.drop (i * g.basis.dim * g.codim + g.basis.dim * c)).take g.basis.dim).length = g.basis.dim := by
    simp; omega
  convert dot_has h1 h2 hlen v using 1
  unfold Vec.dot
  exact Finset.sum_congr rfl fun k hk => by rw [hv' k (Finset.mem_range.mp hk), vecOf_segment (Finset.mem_range.mp hk)]; rfl

end

/-! ## No access out of range -/

theorem scan_range (u : ℝ × ℝ) (t : ℝ) : ∀ (l : List ℝ) (i : ℕ) (left : ℝ), All (scan u t i left l) fun r => r = .ok none ∨ ∃ j < i + l.length, r = .ok (some j)
  | [], _, _ => fun r hr => .inl hr
  | x :: xs, i, left => by
    unfold scan
    refine All.bind (P := fun r => ∃ y, r = .ok y) (fun r hr => ?_) (fun e ⟨_, h⟩ => by cases h) fun right _ => ?_
    · obtain ⟨y, h, -⟩ := hr; exact ⟨y, h⟩
    · split_ifs
      · exact fun r hr => .inr ⟨i, by simp, hr⟩
      · refine (scan_range u t xs (i + 1) right).mono fun r h => ?_
        rcases h with h | ⟨j, hj, h⟩
        · exact .inl h
        · exact .inr ⟨j, by simp only [List.length_cons]; omega, h⟩

theorem getInterval_range (u : ℝ × ℝ) {g : GSpline} (hne : g.tau ≠ []) (t : ℝ) : All (getInterval u g t) fun r => ∃ j < g.tau.length, r = .ok j := by
  have hn : 0 < g.tau.length := List.length_pos_iff.mpr hne
  unfold getInterval
  split_ifs with h h0
  · exact fun r hr => ⟨0, hn, hr⟩
  · unfold GSpline.nIntervals at h0; omega
  · refine All.bind (scan_range u t g.tau 0 g.dom.1) (fun e h => by rcases h with h | ⟨_, _, h⟩ <;> cases h) fun o ho => ?_
    rcases ho with ho | ⟨j, hj, ho⟩
    · cases ho
      exact fun r hr => ⟨_, by unfold GSpline.nIntervals; omega, hr⟩
    · cases ho
      exact fun r hr => ⟨j, by omega, hr⟩

theorem safe_lift_ok {α : Type} (a : α) : All (lift (.ok a)) Safe := fun r hr => by rw [show r = _ from hr]; simp [Safe]

theorem safe_almostEqual (u : ℝ × ℝ) (a b eps : ℝ) : All (almostEqual u a b eps) Safe := by
  unfold almostEqual
  refine safe_bind (safe_near _ _) fun d => ?_
  split_ifs
  · exact safe_pure _
  · exact safe_bind (safe_near _ _) fun _ => safe_bind (safe_near _ _) fun _ => safe_pure _

theorem safe_findNode (u : ℝ × ℝ) (x : Vec) (s : ℝ) : ∀ l, All (findNode u x s l) Safe
  | [] => safe_pure _
  | j :: js => by
    unfold findNode
    refine safe_bind (safe_almostEqual _ _ _ _) fun b => ?_
    split_ifs
    · exact safe_pure _
    · exact safe_findNode u x s js

theorem safe_baryWeights (u : ℝ × ℝ) (n : ℕ) (x : Vec) : All (baryWeights u n x) Safe := by
  unfold baryWeights
  refine safe_bind (safe_loop (fun j r => safe_loop (fun k r => ?_) _) _) fun _ => safe_loop (fun k w => safe_bind (safe_quot _ _ _) fun _ => safe_pure _) _
  unfold baryStep
  exact safe_bind (safe_near _ _) fun _ => safe_bind (safe_near _ _) fun _ => safe_bind (safe_near _ _) fun _ => safe_bind (safe_near _ _) fun _ => safe_pure _

theorem safe_lagrange (u : ℝ × ℝ) (n : ℕ) (x w : Vec) (s : ℝ) : All (lagrange u n x w s) Safe := by
  unfold lagrange
  refine safe_bind (safe_findNode _ _ _ _) fun o => ?_
  cases o with
  | some j => exact safe_pure _
  | none =>
    unfold baryFormula
    exact safe_bind (safe_loop (fun j st => safe_bind (safe_near _ _) fun _ => safe_bind (safe_quot _ _ _) fun _ => safe_bind (safe_near _ _) fun _ => safe_pure _) _) fun st =>
      safe_loop (fun j v => safe_bind (safe_quot _ _ _) fun _ => safe_pure _) _

theorem safe_evalOnWindow (u : ℝ × ℝ) {b : Basis} (hb : ∀ d, b = .legendre d → 2 ≤ d) (s tau : ℝ) : All (evalOnWindow u b s tau) Safe := by
  cases b with
  | legendre d =>
    change All (legendre u d s) Safe
    unfold legendre
    rw [if_neg (by have := hb d rfl; omega)]
    refine safe_loop (fun i b => ?_) _
    unfold legendreBody
    exact safe_bind (safe_quot _ _ _) fun _ => safe_bind (safe_near _ _) fun _ => safe_bind (safe_near _ _) fun _ => safe_bind (safe_near _ _) fun _ => safe_bind (safe_near _ _) fun _ =>
      safe_bind (safe_near _ _) fun _ => safe_pure _
  | b0101 a =>
    change All (b0101 u a s tau) Safe
    unfold b0101
    exact safe_bind (safe_near _ _) fun _ => safe_bind (safe_near _ _) fun _ => safe_bind (safe_near _ _) fun _ => safe_bind (safe_near _ _) fun _ => safe_bind (safe_near _ _) fun _ =>
      safe_bind (safe_near _ _) fun _ => safe_bind (safe_quot _ _ _) fun _ => safe_bind (safe_near _ _) fun _ => safe_bind (safe_near _ _) fun _ => safe_bind (safe_near _ _) fun _ =>
      safe_bind (safe_near _ _) fun _ => safe_bind (safe_near _ _) fun _ => safe_bind (safe_near _ _) fun _ => safe_bind (safe_near _ _) fun _ => safe_bind (safe_quot _ _ _) fun _ =>
      safe_bind (safe_quot _ _ _) fun _ => safe_pure _
  | lagrange x => exact safe_bind (safe_baryWeights _ _ _) fun w => safe_lagrange _ _ _ _ _

theorem safe_value (u : ℝ × ℝ) {g : GSpline} (hb : ∀ d, g.basis = .legendre d → 2 ≤ d) (hcon : Consistent g) (hne : g.tau ≠ []) (t : ℝ) : All (value u g t) Safe := by
  unfold value
  refine All.bind (getInterval_range u hne t) (fun e h => by obtain ⟨_, _, h⟩ := h; cases h) fun i hi => ?_
  obtain ⟨_, hin, h⟩ := hi
  cases h
  rw [rd_ok hin]
  refine safe_bind ?_ fun s => safe_bind (safe_lift_ok _) fun tau => safe_bind (safe_evalOnWindow u hb _ _) fun buf => safe_mapM fun c hc => ?_
  · unfold intervalToWindow
    rw [segment_ok (show 0 + i ≤ g.tau.length by omega), rd_ok hin]
    exact safe_bind (safe_lift_ok _) fun _ => safe_bind (safe_lift_ok _) fun _ => safe_bind (safe_sum _ _) fun _ => safe_bind (safe_near _ _) fun _ => safe_bind (safe_near _ _) fun _ =>
      safe_bind (safe_near _ _) fun _ => safe_bind (safe_quot _ _ _) fun _ => safe_near _ _
  · unfold GSpline.coefficientSegment
    rw [segment_ok (GSpline.coef_bound hcon hin (List.mem_range.mp hc))]
    refine safe_bind (safe_lift_ok _) fun seg => ?_
    unfold dot
    exact safe_bind (safe_mapM fun x _ => safe_near _ _) fun _ => safe_sum _ _

end GSplines.Rounded
