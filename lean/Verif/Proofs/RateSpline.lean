import Verif.Proofs.Rate
import Verif.Proofs.RoundingExact
import Verif.Proofs.RoundingAt

/-! # Evaluation of a spline: errors proportional to the rounding errors -/

namespace GSplines.Rounded

open Nd Spec

theorem dot_rate {n : ℕ} {seg : List ℝ} (hs : seg.length = n) (buf : Vec) :
    RateAt (fun u (b : Vec) => dot u seg ((List.range n).map b)) buf (Vec.dot n (vecOf seg) buf) := by
  have e : ∀ b : Vec, ∀ k < n, vecOf (List.zipWith (· * ·) seg ((List.range n).map b)) k = vecOf seg k * b k := by
    intro b k hk
    unfold vecOf
    rw [List.getD_eq_getElem?_getD, List.getD_eq_getElem?_getD, List.getElem?_eq_getElem (by simp; omega), List.getElem?_eq_getElem (by omega)]
    simp
  have h := RateAt.bind (F := fun u (b : Vec) => nears u n fun k => vecOf seg k * b k) (G := fun u _ v => Nd.sum u ((List.range n).map v)) (x := buf)
    (RateAt.nears (f := fun (b : Vec) k => vecOf seg k * b k) fun k _ => by fun_prop)
    (RateAt.sum (n := n) (f := fun k (q : Vec × Vec) => q.2 k) fun k _ => by fun_prop)
  have h' := h.congr (z' := Vec.dot n (vecOf seg) buf) (by
    unfold Vec.dot
    exact Finset.sum_congr rfl fun k hk => if_pos (Finset.mem_range.mp hk))
  refine h'.of_sub fun u b r hr => ?_
  rcases dot_sub (n := n) (by simp [hs]) hr with ⟨e', ⟨v, hv, -⟩, rfl⟩ | ⟨v, ⟨v', hv, h1, h2⟩, h3⟩
  · cases hv
  · cases hv
    exact .inr ⟨v, ⟨v, rfl, fun k hk => by have := h1 k hk; rwa [e b k hk] at this, h2⟩, h3⟩

theorem legendreBody_rate (i : ℕ) (s : ℝ) (b : Vec) : RateAt (fun u (q : ℝ × Vec) => legendreBody u q.1 i q.2) (s, b) (Legendre.recBody s i b) := by
  unfold legendreBody
  refine RateAt.bind (RateAt.quot (by fun_prop) (by fun_prop) (by positivity)) ?_
  refine RateAt.bind (RateAt.near (by fun_prop)) ?_
  refine RateAt.bind (RateAt.near (by fun_prop)) ?_
  refine RateAt.bind (RateAt.near (by fun_prop)) ?_
  refine RateAt.bind (RateAt.near (by fun_prop)) ?_
  refine RateAt.bind (RateAt.near (by fun_prop)) ?_
  exact (RateAt.pure (by fun_prop)).congr rfl

theorem legendre_rate {d : ℕ} (hd : 2 ≤ d) (s : ℝ) : RateAt (fun u s => legendre u d s) s (Legendre.values d s) := by
  unfold legendre
  simp only [if_neg (show ¬ d < 2 by omega)]
  have h := RateAt.foldlM (l := List.range' 1 (d - 1 - 1)) (body := fun u i s b => legendreBody u s i b) (exact := fun i b => Legendre.recBody s i b) (x := s)
    (s := setAt (setAt (fun _ => 0) 0 1) 1 s) fun i _ b => legendreBody_rate i s b
  exact RateAt.comp (f := fun s : ℝ => (s, setAt (setAt (fun _ => (0 : ℝ)) 0 1) 1 s)) h (LLip.prodMk (LLip.id s) (LLip.setAt (LLip.const _ _) (LLip.id s)))

theorem vec6_llip {α : Type} [Gauge α] {a b c d e f : α → ℝ} {x : α} (ha : LLip a x) (hb : LLip b x) (hc : LLip c x)
    (hd : LLip d x) (he : LLip e x) (hf : LLip f x) : LLip (fun q => B0101.vec6 (a q) (b q) (c q) (d q) (e q) (f q)) x := by
  refine LLip.pi (n := 6) (fun i hi => ?_) fun a k hk => ?_
  · match i, hi with
    | 0, _ => exact ha
    | 1, _ => exact hb
    | 2, _ => exact hc
    | 3, _ => exact hd
    | 4, _ => exact he
    | 5, _ => exact hf
  · match k, hk with
    | n + 6, _ => rfl

theorem b0101_rate {a : ℝ} (h1 : a < 1) (tau s : ℝ) : RateAt (fun u s => b0101 u a s tau) s (B0101.evalOnWindow a s tau) := by
  have hd : (0 : ℝ) < 1 - a := by linarith
  unfold b0101
  refine RateAt.bind (RateAt.near (by fun_prop)) ?_
  refine RateAt.bind (RateAt.near (by fun_prop)) ?_
  refine RateAt.bind (RateAt.near (by fun_prop)) ?_
  refine RateAt.bind (RateAt.near (by fun_prop)) ?_
  refine RateAt.bind (RateAt.near (by fun_prop)) ?_
  refine RateAt.bind (RateAt.near (by apply LLip.rpow; (fun_prop); exact ne_of_gt hd)) ?_
  refine RateAt.bind (RateAt.quot (by fun_prop) (by fun_prop) (ne_of_gt (Real.rpow_pos_of_pos hd _))) ?_
  refine RateAt.bind (RateAt.near (by fun_prop)) ?_
  refine RateAt.bind (RateAt.near (by fun_prop)) ?_
  refine RateAt.bind (RateAt.near (by fun_prop)) ?_
  refine RateAt.bind (RateAt.near (by fun_prop)) ?_
  refine RateAt.bind (RateAt.near (by fun_prop)) ?_
  refine RateAt.bind (RateAt.near (by fun_prop)) ?_
  refine RateAt.bind (RateAt.near (by fun_prop)) ?_
  refine RateAt.bind (RateAt.quot (by fun_prop) (by fun_prop) (Real.exp_ne_zero _)) ?_
  refine RateAt.bind (RateAt.quot (by fun_prop) (by fun_prop) (Real.exp_ne_zero _)) ?_
  exact (RateAt.pure (vec6_llip (by fun_prop) (by fun_prop) (by fun_prop) (by fun_prop) (by fun_prop) (by fun_prop))).congr rfl

theorem baryStep_rate (x : Vec) (j k : ℕ) (r : Vec) : RateAt (fun u (q : Unit × Vec) => baryStep u x j k q.2) ((), r)
    (setAt (setAt r k (r k * (x k - x j))) j (setAt r k (r k * (x k - x j)) j * (x j - x k))) := by
  unfold baryStep
  refine RateAt.bind (RateAt.near (by fun_prop)) ?_
  refine RateAt.bind (RateAt.near (by fun_prop)) ?_
  refine RateAt.bind (RateAt.near (by fun_prop)) ?_
  have e : ∀ q : ((( Unit × Vec) × ℝ) × ℝ) × ℝ, LLip (fun q : (((Unit × Vec) × ℝ) × ℝ) × ℝ => setAt q.1.1.1.2 k q.1.2 j) q := fun q =>
    LLip.comp (g := fun v : Vec => v j) (LLip.apply j _) (f := fun q : (((Unit × Vec) × ℝ) × ℝ) × ℝ => setAt q.1.1.1.2 k q.1.2) (by fun_prop)
  refine RateAt.bind (RateAt.near (LLip.mul (e _) (by fun_prop))) ?_
  exact (RateAt.pure (by fun_prop)).congr rfl

theorem baryWeights_rate {α : Type} [Gauge α] {n : ℕ} {x : Vec} (h : Lagrange.Distinct n x) (a : α) :
    RateAt (fun u (_ : α) => baryWeights u n x) a (exactW n x) := by
  have h1 := RateAt.loop (a := 1) (b := n) (α := Unit) (σ := Vec) (body := fun u j _ r => Nd.loop 0 j (fun k r => baryStep u x j k r) r)
    (exact := fun j r => forLoop 0 j (fun k r => setAt (setAt r k (r k * (x k - x j))) j (setAt r k (r k * (x k - x j)) j * (x j - x k))) r) (x := ()) (s := fun _ => 1)
    fun j _ _ s => RateAt.loop (a := 0) (b := j) (α := Unit) (body := fun u k _ r => baryStep u x j k r) fun k _ _ r => baryStep_rate x j k r
  have h1' : RateAt (fun u (_ : α) => Nd.loop 1 n (fun j r => Nd.loop 0 j (fun k r => baryStep u x j k r) r) fun _ => 1) a (Lagrange.baryProducts n x) :=
    RateAt.comp (f := fun _ : α => ((), (fun _ => (1 : ℝ) : Vec))) h1 (LLip.const _ _)
  unfold baryWeights
  refine RateAt.bind h1' ?_
  have h2 := RateAt.loop (a := 0) (b := n) (α := α × Vec) (σ := Vec) (body := fun u k q (w : Vec) => do
      let q ← quot u 1 (q.2 k)
      return setAt w k q) (exact := fun k w => setAt w k (1 / Lagrange.baryProducts n x k)) (x := (a, Lagrange.baryProducts n x)) (s := fun _ => 0)
    fun k _ hk s => RateAt.bind (RateAt.quot (by fun_prop) (by fun_prop) (products_ne_zero h hk)) ((RateAt.pure (by fun_prop)).congr rfl)
  exact RateAt.comp (x := (a, Lagrange.baryProducts n x)) (f := fun q : α × Vec => (q, (fun _ => (0 : ℝ) : Vec))) h2 (LLip.prodMk (LLip.id _) (LLip.const _ _))

theorem baryFormula_rate {n : ℕ} {x : Vec} (h : Lagrange.Distinct n x) {s : ℝ} (hs : ∀ j < n, s ≠ x j) :
    ∃ v : Vec, RateAt (fun u (q : ℝ × Vec) => baryFormula u n x q.2 q.1) (s, exactW n x) v ∧ ∀ j < n, v j = (_root_.Lagrange.basis (Finset.range n) x j).eval s := by
  have h1 := RateAt.loop (a := 0) (b := n) (α := ℝ × Vec) (σ := Vec × ℝ) (body := fun u j q st => do
      let d ← near u (q.1 - x j)
      let t ← quot u (q.2 j) d
      let sb ← near u (st.2 + t)
      return (setAt st.1 j t, sb)) (exact := fun j st => (setAt st.1 j (exactW n x j / (s - x j)), st.2 + exactW n x j / (s - x j))) (x := (s, exactW n x)) (s := ((fun _ => 0), 0))
    fun j _ hj st => by
      refine RateAt.bind (RateAt.near (by fun_prop)) ?_
      refine RateAt.bind (RateAt.quot (by fun_prop) (by fun_prop) (sub_ne_zero.mpr (hs j hj))) ?_
      refine RateAt.bind (RateAt.near (by fun_prop)) ?_
      exact (RateAt.pure (by fun_prop)).congr rfl
  generalize hst : forLoop 0 n (fun j (st : Vec × ℝ) => (setAt st.1 j (exactW n x j / (s - x j)), st.2 + exactW n x j / (s - x j))) ((fun _ => 0), 0) = st at h1
  obtain ⟨k1, hne⟩ := book_loop h hs hst
  have h2 := RateAt.loop (a := 0) (b := n) (α := (ℝ × Vec) × (Vec × ℝ)) (σ := Vec) (body := fun u j q (v : Vec) => do
      let q ← quot u (q.2.1 j) q.2.2
      return setAt v j q) (exact := fun j v => setAt v j (st.1 j / st.2)) (x := ((s, exactW n x), st)) (s := fun _ => 0)
    fun j _ hj v => RateAt.bind (RateAt.quot (by fun_prop) (by fun_prop) (hne j hj)) ((RateAt.pure (by fun_prop)).congr rfl)
  refine ⟨forLoop 0 n (fun j v => setAt v j (st.1 j / st.2)) fun _ => 0, ?_, fun j hj => ?_⟩
  · unfold baryFormula
    refine RateAt.bind (RateAt.comp (x := (s, exactW n x)) (f := fun q : ℝ × Vec => (q, (((fun _ => 0), 0) : Vec × ℝ))) h1 (LLip.prodMk (LLip.id _) (LLip.const _ _))) ?_
    exact RateAt.comp (x := ((s, exactW n x), st)) (f := fun q : (ℝ × Vec) × (Vec × ℝ) => (q, (fun _ => (0 : ℝ) : Vec))) h2 (LLip.prodMk (LLip.id _) (LLip.const _ _))
  · rw [fill_loop (f := fun j => st.1 j / st.2) hj, k1 j hj]

theorem lagrange_rate {n : ℕ} {x : Vec} (h : Lagrange.Distinct n x) {s : ℝ} (hs : ∀ j < n, s = x j ∨ tol9 * (1 + |s|) < |s - x j|) :
    ∃ v : Vec, RateAt (fun u (q : ℝ × Vec) => lagrange u n x q.2 q.1) (s, exactW n x) v ∧ ∀ j < n, v j = (_root_.Lagrange.basis (Finset.range n) x j).eval s := by
  have hf := EvG.fst (y := exactW n x) (EvG.of_ev (findNode_conv x s (List.range n) fun j hj => hs j (List.mem_range.mp hj)))
  unfold lagrange
  cases hfind : (List.range n).find? fun j => decide (s = x j) with
  | some j0 =>
    rw [hfind] at hf
    have hsx : s = x j0 := by simpa using List.find?_some hfind
    have hj0 : j0 < n := by simpa using List.mem_of_find?_eq_some hfind
    refine ⟨_, RateAt.bind_of hf (RateAt.pure (f := fun _ : ℝ × Vec => setAt (fun _ => 0) j0 1) (LLip.const _ _)), fun j hj => ?_⟩
    simp only [setAt]
    rw [hsx]
    split_ifs with hjj
    · subst hjj
      exact (_root_.Lagrange.eval_basis_self h (Finset.mem_range.mpr hj0)).symm
    · exact (_root_.Lagrange.eval_basis_of_ne hjj (Finset.mem_range.mpr hj0)).symm
  | none =>
    rw [hfind] at hf
    have hne : ∀ k < n, s ≠ x k := fun k hk e => by simpa [e] using List.find?_eq_none.mp hfind k (by simpa using hk)
    obtain ⟨v, hv, hv'⟩ := baryFormula_rate h hne
    exact ⟨v, RateAt.bind_of hf hv, hv'⟩

theorem evalOnWindow_rate {b : Basis} (hb : b.Valid) (tau t : ℝ) (hc : Clear b (window tau t)) :
    ∃ v : Vec, RateAt (fun u s => evalOnWindow u b s tau) (window tau t) v ∧ ∀ k < b.dim, v k = basisFn b tau k t := by
  cases b with
  | legendre d =>
    obtain ⟨v, e, h⟩ := Basis.evalOnWindow_spec (b := .legendre d) hb tau t trivial
    refine ⟨_, legendre_rate hb _, ?_⟩
    simp only [Basis.evalOnWindow, Legendre.evalOnWindow, if_neg (show ¬ d < 2 from not_lt.mpr hb)] at e
    cases e
    exact h
  | b0101 a =>
    obtain ⟨v, e, h⟩ := Basis.evalOnWindow_spec (b := .b0101 a) hb tau t trivial
    refine ⟨_, b0101_rate hb.2 tau _, ?_⟩
    cases e
    exact h
  | lagrange x =>
    have hb' : Props.Separated x.length (vecOf x) := hb
    obtain ⟨v, hv, hv'⟩ := lagrange_rate (n := x.length) hb'.distinct (s := window tau t) fun j hj => by
      refine hc (vecOf x j) ?_
      unfold vecOf
      rw [List.getD_eq_getElem?_getD, List.getElem?_eq_getElem hj]
      exact List.getElem_mem hj
    exact ⟨v, RateAt.bind (baryWeights_rate hb'.distinct _) hv, hv'⟩

theorem intervalToWindow_rate {g : GSpline} {i : ℕ} (hi : i < g.tau.length) (hz : vecOf g.tau i ≠ 0) (t : ℝ) :
    RateAt (fun u t => intervalToWindow u g t i) t (window (vecOf g.tau i) (t - brk g i)) := by
  unfold intervalToWindow
  simp only [segment_ok (show 0 + i ≤ g.tau.length by omega), rd_ok hi, lift_ok, LawfulMonad.pure_bind]
  rw [← range_map_vecOf (List.take i (List.drop 0 g.tau))]
  refine RateAt.bind (RateAt.sum (f := fun k _ => vecOf (List.take i (List.drop 0 g.tau)) k) fun k _ => LLip.const _ _) ?_
  refine RateAt.bind (RateAt.near (by fun_prop)) ?_
  refine RateAt.bind (RateAt.near (by fun_prop)) ?_
  refine RateAt.bind (RateAt.near (by fun_prop)) ?_
  refine RateAt.bind (RateAt.quot (by fun_prop) (by fun_prop) hz) ?_
  refine (RateAt.near (by fun_prop)).congr ?_
  have : ∑ k ∈ Finset.range (List.take i (List.drop 0 g.tau)).length, vecOf (List.take i (List.drop 0 g.tau)) k = (g.tau.take i).sum := by
    change ((List.range (List.take i (List.drop 0 g.tau)).length).map (vecOf (List.take i (List.drop 0 g.tau)))).sum = _
    rw [range_map_vecOf, List.drop_zero]
  unfold window brk
  simp only [this]

end GSplines.Rounded

namespace GSplines.Nd

theorem LLip.cons {α β : Type} [Gauge α] [Gauge β] {f : α → β} {g : α → List β} {x : α} (hf : LLip f x) (hg : LLip g x) : LLip (fun a => f a :: g a) x := by
  refine LLip.comp (g := fun q : β × List β => q.1 :: q.2) (LLip.of_bound (C := 1) (δ := 1) (by norm_num) (by norm_num) ?_) (LLip.prodMk hf hg)
  intro a a' _ _ r hr h
  rw [one_mul]
  exact List.Forall₂.cons h.1 h.2

theorem RateAt.mapM {α β ι : Type} [Gauge α] [Gauge β] {F : ℝ × ℝ → ι → α → Nd β} {z : ι → β} {x : α} (l : List ι) (h : ∀ c ∈ l, RateAt (fun u a => F u c a) x (z c)) :
    RateAt (fun u a => l.mapM fun c => F u c a) x (l.map z) := by
  induction l with
  | nil => exact RateAt.pure (f := fun _ : α => ([] : List β)) (LLip.const _ _)
  | cons c l ih =>
    simp only [List.mapM_cons, List.map_cons]
    refine RateAt.bind (h c (by simp)) ?_
    refine RateAt.bind (RateAt.comp (x := (x, z c)) (f := fun q : α × β => q.1) (ih fun b hb => h b (by simp [hb])) (LLip.fst' _)) ?_
    exact RateAt.pure (x := ((x, z c), l.map z)) (f := fun q : (α × β) × List β => q.1.2 :: q.2) (LLip.cons (by fun_prop) (by fun_prop))

end GSplines.Nd

namespace GSplines.Rounded

open Nd Spec

/-- GSpline.cpp:104-111: the rest of the evaluation once the interval is known. -/
noncomputable def pieceValue (u : ℝ × ℝ) (g : GSpline) (i : ℕ) (t : ℝ) : Nd (List ℝ) := do
  let s ← intervalToWindow u g t i
  let tau ← lift (rd g.tau i)
  let buf ← evalOnWindow u g.basis s tau
  (List.range g.codim).mapM fun c => do
    let seg ← lift (g.coefficientSegment i c)
    dot u seg ((List.range g.basis.dim).map buf)

theorem value_eq (u : ℝ × ℝ) (g : GSpline) (t : ℝ) : value u g t = getInterval u g t >>= fun i => pieceValue u g i t := rfl

theorem pieceValue_rate {g : GSpline} (hb : g.basis.Valid) (hcon : Consistent g) (hp : Positive g) {i : ℕ} (hin : i < g.tau.length) {t : ℝ}
    (hc : Clear g.basis (window (vecOf g.tau i) (t - brk g i))) :
    RateAt (fun u t => pieceValue u g i t) t ((List.range g.codim).map fun c => curve g i c t) := by
  have hz : vecOf g.tau i ≠ 0 := (vecOf_pos hp.2 hin).ne'
  obtain ⟨buf, hbuf, hv⟩ := evalOnWindow_rate hb (vecOf g.tau i) (t - brk g i) hc
  unfold pieceValue
  simp only [rd_ok hin, lift_ok, LawfulMonad.pure_bind]
  refine RateAt.bind (intervalToWindow_rate hin hz t) ?_
  refine RateAt.bind (RateAt.comp (x := (t, window (vecOf g.tau i) (t - brk g i))) (f := fun q : ℝ × ℝ => q.2) hbuf (LLip.snd' _)) ?_
  refine RateAt.mapM _ fun c hcm => ?_
  have hcc := List.mem_range.mp hcm
  have hbd := GSpline.coef_bound hcon hin hcc
  have hlen : ((g.coeffs.drop (i * g.basis.dim * g.codim + g.basis.dim * c)).take g.basis.dim).length = g.basis.dim := by
    simp; omega
  unfold GSpline.coefficientSegment
  simp only [segment_ok hbd, lift_ok, LawfulMonad.pure_bind]
  refine RateAt.comp (x := ((t, window (vecOf g.tau i) (t - brk g i)), buf)) (f := fun q : (ℝ × ℝ) × Vec => q.2) ((dot_rate hlen buf).congr ?_) (LLip.snd' _)
  unfold curve piece comb Vec.dot
  exact Finset.sum_congr rfl fun k hk => by rw [hv k (Finset.mem_range.mp hk), vecOf_segment (Finset.mem_range.mp hk)]

/-! ## The interval -/

theorem scan_rate : ∀ (xs : List ℝ) (L : ℝ), ∃ C ≥ (0 : ℝ), ∃ δ > (0 : ℝ), ∀ u, Small u δ → ∀ (i : ℕ) (t left e : ℝ), 0 ≤ e → e ≤ δ → |left - L| ≤ e → left < t →
    All (scan u t i left xs) fun r =>
      (∃ j < xs.length, r = .ok (some (i + j)) ∧ L + (xs.take j).sum ≤ t + C * (sz u + e) ∧ t ≤ L + (xs.take (j + 1)).sum + C * (sz u + e)) ∨
      (r = .ok none ∧ L + xs.sum ≤ t + C * (sz u + e)) := by
  intro xs
  induction xs with
  | nil =>
    intro L
    refine ⟨1, by norm_num, 1, by norm_num, fun u hu i t left e he he' hl hlt r hr => .inr ⟨hr, ?_⟩⟩
    have := (abs_le.mp hl).1
    simp only [List.sum_nil]
    linarith [sz_nonneg hu]
  | cons x xs ih =>
    intro L
    obtain ⟨C, hC, δ, hδ, ih⟩ := ih (L + x)
    set M := |L + x| + 1 with hMdef
    have hM : 0 < M := by positivity
    have hm : 0 < min 1 (δ / (2 * (M + 1) + 1)) := lt_min one_pos (by positivity)
    refine ⟨C * (M + 2) + (M + 2), by positivity, min 1 (δ / (2 * (M + 1) + 1)), hm, fun u hu i t left e he he' hl hlt r hr => ?_⟩
    have hs := sz_nonneg hu
    have hsl := sz_le hu
    have hδ' : (2 * (M + 1) + 1) * min 1 (δ / (2 * (M + 1) + 1)) ≤ δ := by
      have := mul_le_mul_of_nonneg_left (min_le_right 1 (δ / (2 * (M + 1) + 1))) (show (0 : ℝ) ≤ 2 * (M + 1) + 1 by positivity)
      rwa [mul_div_cancel₀ _ (by positivity : 2 * (M + 1) + 1 ≠ 0)] at this
    have hle1 : min 1 (δ / (2 * (M + 1) + 1)) ≤ δ := by nlinarith
    have hleft : |left + x| ≤ M := by
      have := abs_add_le (left - L) (L + x)
      rw [show left - L + (L + x) = left + x by ring] at this
      linarith [he'.trans (min_le_left _ _)]
    unfold scan at hr
    rcases hr with ⟨e', he', -⟩ | ⟨right, hright, hr⟩
    · obtain ⟨_, h, _⟩ := he'; cases h
    obtain ⟨_, h, hy⟩ := hright
    cases h
    have hyy := near_le hu hy hleft hM.le
    have hR : |right - (L + x)| ≤ (M + 1) * sz u + e := by
      have := abs_sub_le right (left + x) (L + x)
      rw [show left + x - (L + x) = left - L by ring] at this
      linarith
    have hb : C * (sz u + ((M + 1) * sz u + e)) ≤ (C * (M + 2) + (M + 2)) * (sz u + e) := by
      have h1 : sz u + ((M + 1) * sz u + e) ≤ (M + 2) * (sz u + e) := by nlinarith
      have h2 := mul_le_mul_of_nonneg_left h1 hC
      have h3 : 0 ≤ (M + 2) * (sz u + e) := by positivity
      nlinarith
    have hb2 : (M + 1) * sz u + e ≤ (C * (M + 2) + (M + 2)) * (sz u + e) := by
      have h3 : 0 ≤ C * (M + 2) * (sz u + e) := by positivity
      nlinarith
    split_ifs at hr with hcond
    · refine .inl ⟨0, by simp, hr, ?_, ?_⟩
      · have := (abs_le.mp hl).1
        have h3 : e ≤ (M + 1) * sz u + e := by nlinarith
        simp only [List.take_zero, List.sum_nil]
        linarith
      · have := (abs_le.mp hR).2
        simp only [zero_add, List.take_succ_cons, List.take_zero, List.sum_cons, List.sum_nil]
        linarith [hcond.2]
    · have hlt' : right < t := by
        by_contra hc
        exact hcond ⟨hlt, not_lt.mp hc⟩
      have he2 : (M + 1) * sz u + e ≤ δ := by
        have : (M + 1) * sz u ≤ (M + 1) * (2 * min 1 (δ / (2 * (M + 1) + 1))) := mul_le_mul_of_nonneg_left hsl (by positivity)
        linarith
      rcases ih u (small_mono hle1 hu) (i + 1) t right ((M + 1) * sz u + e) (by positivity) he2 hR hlt' r hr with ⟨j, hj, e3, b1, b2⟩ | ⟨e3, b⟩
      · refine .inl ⟨j + 1, by simpa using hj, by rw [e3]; congr 2; omega, ?_, ?_⟩
        · rw [List.take_succ_cons, List.sum_cons]; linarith
        · rw [List.take_succ_cons, List.sum_cons]; linarith
      · exact .inr ⟨e3, by rw [List.sum_cons]; linarith⟩

/-- The interval is right up to an error of its ends that is proportional to the rounding errors. -/
theorem getInterval_rate {g : GSpline} (hp : Positive g) : ∃ C ≥ (0 : ℝ), ∃ δ > (0 : ℝ), ∀ u, Small u δ → ∀ t,
    All (getInterval u g t) fun r => ∃ i, r = .ok i ∧ i < g.tau.length ∧ (brk g i ≤ t + C * sz u ∨ i = 0) ∧ (t ≤ brk g (i + 1) + C * sz u ∨ i + 1 = g.tau.length) := by
  have hn : 0 < g.tau.length := List.length_pos_iff.mpr hp.1
  obtain ⟨C, hC, δ, hδ, h⟩ := scan_rate g.tau g.dom.1
  refine ⟨C, hC, δ, hδ, fun u hu t r hr => ?_⟩
  have hs := mul_nonneg hC (sz_nonneg hu)
  unfold getInterval at hr
  by_cases ht : t ≤ g.dom.1
  · rw [if_pos ht] at hr
    refine ⟨0, hr, hn, .inr rfl, .inl ?_⟩
    have := GSpline.brk_lt_succ hp hn
    rw [GSpline.brk_zero] at this
    linarith
  · rw [if_neg ht] at hr
    have hu' := h u hu 0 t g.dom.1 0 le_rfl hδ.le (by simp) (not_le.mp ht)
    rw [add_zero] at hu'
    rcases hr with ⟨e, he, -⟩ | ⟨o, ho, hr⟩
    · rcases hu' _ he with ⟨_, _, h, _⟩ | ⟨h, _⟩ <;> cases h
    · rcases hu' _ ho with ⟨j, hj, h, b1, b2⟩ | ⟨h, b⟩
      · cases h
        exact ⟨0 + j, hr, by omega, .inl (by rw [Nat.zero_add]; exact b1), .inl (by rw [Nat.zero_add]; exact b2)⟩
      · cases h
        have hr' : r = .ok (g.tau.length - 1) := by
          have : r = .ok (if g.nIntervals = 0 then 2 ^ 64 - 1 else g.nIntervals - 1) := hr
          rwa [if_neg (show g.nIntervals ≠ 0 from by unfold GSpline.nIntervals; omega)] at this
        refine ⟨_, hr', by omega, ?_, .inr (by omega)⟩
        by_cases h1 : g.tau.length - 1 = 0
        · exact .inr h1
        · refine .inl ?_
          have := GSpline.brk_mono hp (i := g.tau.length - 1) (j := g.tau.length) (by omega) le_rfl
          have e2 : brk g g.tau.length = g.dom.1 + g.tau.sum := by unfold brk; rw [List.take_length]
          linarith

end GSplines.Rounded
