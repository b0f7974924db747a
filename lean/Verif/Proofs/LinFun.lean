import Verif.Spec.LinFun
import Verif.Proofs.Functionals
import Verif.Proofs.LegendreModel

/-!
# Programs on linear functionals: proofs
-/

namespace GSplines.LinFun

open GSplines Colloc Spec.LinFun

/-- The matrix computes the function. -/
structure Denotes (L : LF) (m : Map) : Prop where
  dom : L.cols = m.dom
  cod : L.rows = m.cod
  val : ∀ v : List ℝ, v.length = m.dom → (List.range L.rows).map (L.mat.mulVec L.cols (vecOf v)) = m.f v

theorem denotes_ofMatrix (L : LF) : Denotes L (ofMatrix L.rows L.cols L.mat) := by
  refine ⟨rfl, rfl, fun v _ => ?_⟩
  refine List.map_congr_left fun i _ => ?_
  unfold Mat.mulVec vecOf
  rw [Finset.sum_range, ← List.sum_ofFn]
  congr 1
  refine List.ext_getElem (by simp) fun k h1 h2 => by simp

theorem denotes_comp {A B : LF} {a b : Map} (hA : Denotes A a) (hB : Denotes B b) (h : a.dom = b.cod) :
    ∃ L, A.comp B = .ok L ∧ Denotes L ⟨b.dom, a.cod, fun v => a.f (b.f v)⟩ := by
  refine ⟨_, if_neg (not_not.2 (by rw [hA.dom, hB.cod, h])), hB.dom, hA.cod, fun v hv => ?_⟩
  have hb := hB.val v hv
  have ha := hA.val (b.f v) (by rw [← hb]; simp [h, hB.cod])
  show _ = a.f (b.f v)
  rw [← ha, ← hb]
  refine List.map_congr_left fun i _ => ?_
  show (Mat.mul A.cols A.mat B.mat).mulVec B.cols (vecOf v) i = _
  have hAB : A.cols = B.rows := by rw [hA.dom, hB.cod, h]
  have e : ∀ k < A.cols, vecOf ((List.range B.rows).map (B.mat.mulVec B.cols (vecOf v))) k = B.mat.mulVec B.cols (vecOf v) k := by
    intro k hk
    rw [hAB] at hk
    simp [vecOf, hk]
  unfold Mat.mulVec Mat.mul at *
  refine Eq.trans ?_ (Finset.sum_congr rfl fun k hk => by rw [e k (Finset.mem_range.1 hk)]).symm
  simp_rw [Finset.sum_mul, Finset.mul_sum]
  rw [Finset.sum_comm]
  exact Finset.sum_congr rfl fun k _ => Finset.sum_congr rfl fun j _ => by ring

theorem zip_range (op : ℝ → ℝ → ℝ) (n : ℕ) (f g : ℕ → ℝ) : List.zipWith op ((List.range n).map f) ((List.range n).map g) = (List.range n).map fun i => op (f i) (g i) := by
  refine List.ext_getElem (by simp) fun k h1 h2 => by simp

theorem denotes_add {A B : LF} {a b : Map} (hA : Denotes A a) (hB : Denotes B b) (h : a.dom = b.dom ∧ a.cod = b.cod) :
    ∃ L, A.add B = .ok L ∧ Denotes L ⟨a.dom, a.cod, fun v => List.zipWith (· + ·) (a.f v) (b.f v)⟩ := by
  have h1 : A.rows = B.rows := by rw [hA.cod, hB.cod, h.2]
  have h2 : A.cols = B.cols := by rw [hA.dom, hB.dom, h.1]
  refine ⟨_, if_neg (by simp [h1, h2]), hA.dom, hA.cod, fun v hv => ?_⟩
  show _ = List.zipWith (· + ·) (a.f v) (b.f v)
  have hv' : v.length = a.dom := hv
  rw [← hA.val v hv', ← hB.val v (by rw [hv', h.1]), ← h1, zip_range]
  refine List.map_congr_left fun i _ => ?_
  simp only [Mat.mulVec]
  rw [← h2, ← Finset.sum_add_distrib]
  exact Finset.sum_congr rfl fun k _ => by ring

theorem denotes_sub {A B : LF} {a b : Map} (hA : Denotes A a) (hB : Denotes B b) (h : a.dom = b.dom ∧ a.cod = b.cod) :
    ∃ L, A.sub B = .ok L ∧ Denotes L ⟨a.dom, a.cod, fun v => List.zipWith (· - ·) (a.f v) (b.f v)⟩ := by
  have h1 : A.rows = B.rows := by rw [hA.cod, hB.cod, h.2]
  have h2 : A.cols = B.cols := by rw [hA.dom, hB.dom, h.1]
  refine ⟨_, if_neg (by simp [h1, h2]), hA.dom, hA.cod, fun v hv => ?_⟩
  show _ = List.zipWith (· - ·) (a.f v) (b.f v)
  have hv' : v.length = a.dom := hv
  rw [← hA.val v hv', ← hB.val v (by rw [hv', h.1]), ← h1, zip_range]
  refine List.map_congr_left fun i _ => ?_
  simp only [Mat.mulVec]
  rw [← h2, ← Finset.sum_sub_distrib]
  exact Finset.sum_congr rfl fun k _ => by ring

theorem denotes_neg {A : LF} {a : Map} (hA : Denotes A a) : Denotes A.neg ⟨a.dom, a.cod, fun v => (a.f v).map (- ·)⟩ := by
  refine ⟨hA.dom, hA.cod, fun v hv => ?_⟩
  have hv' : v.length = a.dom := hv
  show _ = (a.f v).map (- ·)
  rw [← hA.val v hv', List.map_map]
  refine List.map_congr_left fun i _ => ?_
  simp only [Mat.mulVec, LF.neg, Function.comp]
  rw [← Finset.sum_neg_distrib]
  exact Finset.sum_congr rfl fun k _ => by ring

theorem denotes_smul {A : LF} {a : Map} (x : ℝ) (hA : Denotes A a) : Denotes (LF.smul x A) ⟨a.dom, a.cod, fun v => (a.f v).map (x * ·)⟩ := by
  refine ⟨hA.dom, hA.cod, fun v hv => ?_⟩
  have hv' : v.length = a.dom := hv
  show _ = (a.f v).map (x * ·)
  rw [← hA.val v hv', List.map_map]
  refine List.map_congr_left fun i _ => ?_
  simp only [Mat.mulVec, LF.smul, Function.comp]
  rw [Finset.mul_sum]
  exact Finset.sum_congr rfl fun k _ => by ring

/-- The objects compute the functions and have the declared types. -/
def Rep (σ : Store) (T : Types) (E : Env) : Prop := ∀ x m, E x = some m → ∃ o, σ x = some o ∧ T x = some o.kind ∧ Denotes o.lf m

theorem Rep.put {σ : Store} {T : Types} {E : Env} (h : Rep σ T E) (z : ℕ) (o : Obj) (m : Map) (hd : Denotes o.lf m) : Rep (σ.put z o) (T.put z o.kind) (E.put z m) := by
  intro x m' hx
  unfold Store.put Types.put Env.put at *
  by_cases e : x = z
  · rw [if_pos e] at hx
    cases hx
    exact ⟨o, if_pos e, if_pos e, hd⟩
  · rw [if_neg e] at hx
    rw [if_neg e, if_neg e]
    exact h x m' hx

theorem Rep.put_same {σ : Store} {T : Types} {E : Env} (h : Rep σ T E) (z : ℕ) (o : Obj) (m : Map) (hT : T z = some o.kind) (hd : Denotes o.lf m) :
    Rep (σ.put z o) T (E.put z m) := by
  have e : T = T.put z o.kind := by
    funext y
    unfold Types.put
    split
    · next e => rw [e, hT]
    · rfl
  rw [e]
  exact h.put z o m hd

theorem get_some {σ : Store} {x : ℕ} {o : Obj} (h : σ x = some o) : σ.get x = .ok o := by unfold Store.get; rw [h]

/-- The objects with the numbers of values that `get_codom_dim` reports. -/
def RepC (σ : Store) (E : Env) : Prop := ∀ x m o, E x = some m → σ x = some o → o.codim = m.cod

theorem RepC.put {σ : Store} {E : Env} (h : RepC σ E) (z : ℕ) (o : Obj) (m : Map) (hd : o.codim = m.cod) : RepC (σ.put z o) (E.put z m) := by
  intro x m' o' hx ho
  unfold Store.put Env.put at *
  by_cases e : x = z
  · rw [if_pos e] at hx ho
    cases hx; cases ho
    exact hd
  · rw [if_neg e] at hx ho
    exact h x m' o' hx ho

theorem step_refines (s : Stmt) (σ : Store) (T T' : Types) (E E' : Env) (h : Rep σ T E) (hT : types T s = some T') (hE : step E s = some E') :
    ∃ σ', s.run σ = .ok σ' ∧ Rep σ' T' E' ∧ (RepC σ E → (∀ x y, s = .set x y → (E x).map Map.cod = (E y).map Map.cod) → RepC σ' E') := by
  cases s with
  | new z k L =>
    simp only [types, step, Option.some.injEq] at hT hE
    subst hT hE
    exact ⟨_, rfl, h.put z (make k L) _ (denotes_ofMatrix L), fun hC _ => hC.put z _ _ rfl⟩
  | copy z x =>
    simp only [types, step, Option.bind_eq_bind, Option.bind_eq_some_iff, Option.pure_def, Option.some.injEq] at hT hE
    obtain ⟨m, hm, rfl⟩ := hE
    obtain ⟨k, hk, rfl⟩ := hT
    obtain ⟨o, ho, hko, hd⟩ := h x m hm
    have := hk.symm.trans hko; cases this
    refine ⟨_, by rw [Stmt.run, get_some ho]; rfl, h.put z (copy o) m hd, fun hC _ => hC.put z _ _ (hC x m o hm ho)⟩
  | neg z x =>
    simp only [types, step, Option.bind_eq_bind, Option.bind_eq_some_iff, Option.pure_def, Option.some.injEq] at hT hE
    obtain ⟨m, hm, rfl⟩ := hE
    obtain ⟨k, hk, rfl⟩ := hT
    obtain ⟨o, ho, hko, hd⟩ := h x m hm
    have := hk.symm.trans hko; cases this
    refine ⟨_, by rw [Stmt.run, get_some ho]; rfl, h.put z (neg o) _ (denotes_neg hd), fun hC _ => hC.put z _ _ (hC x m o hm ho)⟩
  | smul z c x =>
    simp only [types, step, Option.bind_eq_bind, Option.bind_eq_some_iff, Option.pure_def, Option.some.injEq] at hT hE
    obtain ⟨m, hm, rfl⟩ := hE
    obtain ⟨k, hk, rfl⟩ := hT
    obtain ⟨o, ho, hko, hd⟩ := h x m hm
    have := hk.symm.trans hko; cases this
    refine ⟨_, by rw [Stmt.run, get_some ho]; rfl, h.put z (smul c o) _ (denotes_smul c hd), fun hC _ => hC.put z _ _ (hC x m o hm ho)⟩
  | convert z d x =>
    simp only [types, step, Option.bind_eq_bind, Option.bind_eq_some_iff, Option.pure_def, Option.some.injEq] at hT hE
    obtain ⟨m, hm, rfl⟩ := hE
    obtain ⟨k, hk, rfl⟩ := hT
    obtain ⟨o, ho, hko, hd⟩ := h x m hm
    refine ⟨_, by rw [Stmt.run, get_some ho]; rfl, h.put z (convert d o) m hd, fun hC _ => hC.put z _ _ hd.cod⟩
  | scale x c =>
    simp only [types, step, Option.bind_eq_bind, Option.bind_eq_some_iff, Option.pure_def, Option.some.injEq] at hT hE
    obtain ⟨m, hm, rfl⟩ := hE
    obtain ⟨k, hk, rfl⟩ := hT
    obtain ⟨o, ho, hko, hd⟩ := h x m hm
    refine ⟨_, by rw [Stmt.run, get_some ho]; rfl, h.put_same x { o with lf := LF.smul c o.lf } _ hko (denotes_smul c hd), fun hC _ => hC.put x _ _ (hC x m o hm ho)⟩
  | mul z x y =>
    simp only [types, step, Option.bind_eq_bind, Option.bind_eq_some_iff] at hT hE
    obtain ⟨a, ha, b, hb, hE⟩ := hE
    obtain ⟨k, hk, l, hl, hT⟩ := hT
    rw [Option.ite_none_right_eq_some, Option.some.injEq] at hE hT
    obtain ⟨hfit, rfl⟩ := hE
    obtain ⟨hkl, rfl⟩ := hT
    obtain ⟨o, ho, hko, hd⟩ := h x a ha
    obtain ⟨q, hq, hkq, hd'⟩ := h y b hb
    have := hk.symm.trans hko; cases this
    have := hl.symm.trans hkq; cases this
    obtain ⟨L, hL, hdL⟩ := denotes_comp hd hd' hfit
    have hacc : o.kind.accepts q.kind = true := by
      revert hkl
      cases o.kind <;> cases q.kind <;> simp [Kind.accepts]
    refine ⟨σ.put z (make o.kind L), ?_, h.put z (make o.kind L) _ hdL, fun hC _ => hC.put z _ _ hdL.cod⟩
    rw [Stmt.run, get_some ho, get_some hq]
    show (do return σ.put z (← LinFun.mul o q)) = _
    rw [LinFun.mul, if_pos hacc, hL]; rfl
  | add z x y =>
    simp only [types, step, Option.bind_eq_bind, Option.bind_eq_some_iff] at hT hE
    obtain ⟨a, ha, b, hb, hE⟩ := hE
    obtain ⟨k, hk, l, hl, hT⟩ := hT
    rw [Option.ite_none_right_eq_some, Option.some.injEq] at hE hT
    obtain ⟨hfit, rfl⟩ := hE
    obtain ⟨hkl, rfl⟩ := hT
    obtain ⟨o, ho, hko, hd⟩ := h x a ha
    obtain ⟨q, hq, hkq, hd'⟩ := h y b hb
    have := hk.symm.trans hko; cases this
    have := hl.symm.trans hkq; cases this
    obtain ⟨L, hL, hdL⟩ := denotes_add hd hd' hfit
    have hacc : o.kind.addable q.kind = true := by
      revert hkl
      cases o.kind <;> cases q.kind <;> simp [Kind.addable, Kind.accepts]
    refine ⟨σ.put z (make o.kind L), ?_, h.put z (make o.kind L) _ hdL, fun hC _ => hC.put z _ _ hdL.cod⟩
    rw [Stmt.run, get_some ho, get_some hq]
    show (do return σ.put z (← LinFun.add o q)) = _
    rw [LinFun.add, if_pos hacc, hL]; rfl
  | sub z x y =>
    simp only [types, step, Option.bind_eq_bind, Option.bind_eq_some_iff] at hT hE
    obtain ⟨a, ha, b, hb, hE⟩ := hE
    obtain ⟨k, hk, l, hl, hT⟩ := hT
    rw [Option.ite_none_right_eq_some, Option.some.injEq] at hE hT
    obtain ⟨hfit, rfl⟩ := hE
    obtain ⟨hkl, rfl⟩ := hT
    obtain ⟨o, ho, hko, hd⟩ := h x a ha
    obtain ⟨q, hq, hkq, hd'⟩ := h y b hb
    have := hk.symm.trans hko; cases this
    have := hl.symm.trans hkq; cases this
    obtain ⟨L, hL, hdL⟩ := denotes_sub hd hd' hfit
    have hacc : o.kind.addable q.kind = true := by
      revert hkl
      cases o.kind <;> cases q.kind <;> simp [Kind.addable, Kind.accepts]
    refine ⟨σ.put z (make o.kind L), ?_, h.put z (make o.kind L) _ hdL, fun hC _ => hC.put z _ _ hdL.cod⟩
    rw [Stmt.run, get_some ho, get_some hq]
    show (do return σ.put z (← LinFun.sub o q)) = _
    rw [LinFun.sub, if_pos hacc, hL]; rfl
  | set x y =>
    simp only [types, step, Option.bind_eq_bind, Option.bind_eq_some_iff, Option.pure_def] at hT hE
    obtain ⟨a, ha, b, hb, hE⟩ := hE
    obtain ⟨k, hk, l, hl, hT⟩ := hT
    rw [Option.some.injEq] at hE
    rw [Option.ite_none_right_eq_some, Option.some.injEq] at hT
    subst hE
    obtain ⟨hkl, rfl⟩ := hT
    obtain ⟨o, ho, hko, hd⟩ := h x a ha
    obtain ⟨q, hq, hkq, hd'⟩ := h y b hb
    have := hk.symm.trans hko; cases this
    have := hl.symm.trans hkq; cases this
    have hr : replace o q = .ok { o with lf := q.lf } := by
      unfold replace
      revert hkl
      cases o.kind <;> cases q.kind <;> simp
    refine ⟨σ.put x { o with lf := q.lf }, ?_, h.put_same x { o with lf := q.lf } b hko hd', fun hC hs => hC.put x _ _ ?_⟩
    · rw [Stmt.run, get_some ho, get_some hq]
      show (do return σ.put x (← replace o q)) = _
      rw [hr]; rfl
    · have := hs x y rfl
      rw [ha, hb, Option.map_some, Option.map_some, Option.some.injEq] at this
      rw [← this]
      exact hC x a o ha ho

theorem run_refines : ∀ (p : List Stmt) (σ : Store) (T T' : Types) (E E' : Env), Rep σ T E → typesAll p T = some T' → Spec.LinFun.run p E = some E' →
    ∃ σ', run p σ = .ok σ' ∧ Rep σ' T' E' ∧ (RepC σ E → SameSize p E → RepC σ' E')
  | [], σ, T, T', E, E', h, hT, hE => by
    simp only [typesAll, Spec.LinFun.run, Option.some.injEq] at hT hE
    subst hT hE
    exact ⟨σ, rfl, h, fun hC _ => hC⟩
  | s :: p, σ, T, T', E, E', h, hT, hE => by
    rw [typesAll, Option.bind_eq_some_iff] at hT
    rw [Spec.LinFun.run, Option.bind_eq_some_iff] at hE
    obtain ⟨T1, hT1, hT⟩ := hT
    obtain ⟨E1, hE1, hE⟩ := hE
    obtain ⟨σ1, h1, hR, hC⟩ := step_refines s σ T T1 E E1 h hT1 hE1
    obtain ⟨σ', h2, hR', hC'⟩ := run_refines p σ1 T1 T' E1 E' hR hT hE
    refine ⟨σ', by rw [run, h1]; exact h2, hR', fun c hs => hC' (hC c hs.1) (hs.2 E1 hE1)⟩

end GSplines.LinFun
