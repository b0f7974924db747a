import Verif.Spec.Bindings
import Verif.Props.FnOps
import Verif.Props.FnDeriv

/-!
# Properties of the Python interface of the functions (C81)
-/

namespace GSplines.Props

open GSplines Fn Spec GSplines.Bindings GSplines.Spec.Bindings

/-! ## Helper lemmas -/

theorem plain_cases {f : Fn} (h : Plain f) : (isExpr f = true ∧ classOf f = .functionExpression) ∨
    (isExpr f = false ∧ Cls.function ∈ (classOf f).mro ∧ Cls.functionExpression ∉ (classOf f).mro ∧ ∀ op, lookup (classOf f) op = methods .function op) := by
  cases f with
  | expr d c ty args => exact Or.inl ⟨rfl, rfl⟩
  | gspl g => exact absurd ⟨g, rfl⟩ h.1
  | user d c F => exact absurd ⟨d, c, F, rfl⟩ h.2
  | _ => exact Or.inr ⟨rfl, by change _ ∈ Cls.mro _; dsimp only [classOf]; decide, by dsimp only [classOf]; decide, fun op => by cases op <;> rfl⟩

theorem lookup_expr (op : Op) : lookup .functionExpression op = if op = .dot then methods .functionBase .dot else methods .functionExpression op := by
  cases op <;> rfl

theorem lookup_spline (op : Op) : lookup .gspline op = methods .functionBase op := by
  cases op <;> rfl

theorem base_mem (f : Fn) : Cls.functionBase ∈ (classOf f).mro := by
  cases f <;> (simp only [classOf]; decide)

theorem scripted_iff (f : Fn) : scripted f = true ↔ IsScripted f := by
  cases f <;> simp [scripted, IsScripted]

theorem expr_mem {f : Fn} : Cls.functionExpression ∈ (classOf f).mro ↔ isExpr f = true := by
  cases f <;> (simp only [classOf, isExpr]; decide)

theorem function_mem {f : Fn} : Cls.function ∈ (classOf f).mro ↔ isExpr f = false ∧ ¬ IsSpline f := by
  cases f <;> simp only [classOf, isExpr, IsSpline] <;> simp <;> decide

theorem invoke_plain (op : Op) {f g : Fn} (hf : Plain f) (hg : Plain g) :
    invoke op (.fn f) (.fn g) = (do return .fn (← cpp op f g)) := by
  have sf : scripted f = false := Bool.eq_false_iff.mpr fun h => hf.2 ((scripted_iff f).mp h)
  have sg : scripted g = false := Bool.eq_false_iff.mpr fun h => hg.2 ((scripted_iff g).mp h)
  have bg : Cls.functionBase ∈ (classOf g).mro := base_mem g
  have h1 : Cls.functionExpression ∈ (classOf g).mro ↔ isExpr g = true := expr_mem
  have h2 : Cls.function ∈ (classOf g).mro ↔ isExpr g = false := function_mem.trans (and_iff_left hg.1)
  rcases plain_cases hf with ⟨ef, cf⟩ | ⟨ef, -, -, lf⟩
  · cases eg : isExpr g <;> rw [eg] at h1 h2 <;> cases op <;> simp only [invoke, cf, lookup_expr] <;>
      simp [methods, h1, h2, bg, sf, sg, cpp, named, ef, eg, overloadFor]
  · cases eg : isExpr g <;> rw [eg] at h1 h2 <;> cases op <;> simp only [invoke, lf] <;>
      simp [methods, h1, h2, bg, sf, sg, cpp, named, ef, eg, overloadFor]

theorem plain_expr (d : ℝ × ℝ) (c : ℕ) (ty : Ty) (l : List Fn) : Plain (.expr d c ty l) :=
  ⟨fun ⟨_, h⟩ => Fn.noConfusion h, fun ⟨_, _, _, h⟩ => Fn.noConfusion h⟩

theorem plain_dot (d : ℝ × ℝ) (f g : Fn) : Plain (.dot d f g) :=
  ⟨fun ⟨_, h⟩ => Fn.noConfusion h, fun ⟨_, _, _, h⟩ => Fn.noConfusion h⟩

theorem add_form {f g : Fn} : add f g = .error .invalidArgument ∨ ∃ d c l, add f g = .ok (.expr d c .sum l) := by
  unfold add
  split_ifs <;> simp

theorem cpp_form (op : Op) (f g : Fn) : cpp op f g = .error .invalidArgument ∨ cpp op f g = .error .assertFail ∨ ∃ r, cpp op f g = .ok r ∧ Plain r := by
  cases op with
  | add =>
    rcases add_form (f := f) (g := g) with h | ⟨d, c, l, h⟩
    · exact Or.inl h
    · exact Or.inr (Or.inr ⟨_, h, plain_expr _ _ _ _⟩)
  | sub =>
    change Fn.sub f g = _ ∨ Fn.sub f g = _ ∨ ∃ r, Fn.sub f g = _ ∧ _
    unfold Fn.sub
    split_ifs
    any_goals exact Or.inl rfl
    rcases add_form (f := f) (g := g.neg) with h | ⟨d, c, l, h⟩
    · exact Or.inl h
    · exact Or.inr (Or.inr ⟨_, h, plain_expr _ _ _ _⟩)
  | mul =>
    simp only [cpp, Fn.mul]
    split_ifs
    all_goals first | exact Or.inl rfl | exact Or.inr (Or.inr ⟨_, rfl, plain_expr _ _ _ _⟩)
  | compose =>
    simp only [cpp, Fn.compose]
    split_ifs
    all_goals first | exact Or.inl rfl | exact Or.inr (Or.inr ⟨_, rfl, plain_expr _ _ _ _⟩)
  | concat =>
    simp only [cpp, Fn.concat]
    split_ifs
    all_goals first | exact Or.inl rfl | exact Or.inr (Or.inl rfl) | exact Or.inr (Or.inr ⟨_, rfl, plain_expr _ _ _ _⟩)
  | dot =>
    simp only [cpp, Fn.dotOp, Fn.mkDot]
    split_ifs
    all_goals first | exact Or.inl rfl | exact Or.inr (Or.inl rfl) | exact Or.inr (Or.inr ⟨_, rfl, plain_dot _ _ _⟩)

theorem bind_fn_ne_typeError {r : Res Fn} (h : r ≠ .error .typeError) : (do return Obj.fn (← r) : Res Obj) ≠ .error .typeError := by
  cases r with
  | ok a => simp [bind, Except.bind, pure, Except.pure]
  | error e => simpa [bind, Except.bind] using h

theorem exec_ne_typeError {c : Cls} {op : Op} {o : Overload} (ho : o ∈ methods c op) (f g : Fn) : o.exec f g ≠ .error .typeError := by
  have hadd : ∀ a b, add a b ≠ .error .typeError := fun a b => by unfold add; split_ifs <;> simp
  have hsub : ∀ a b, sub a b ≠ .error .typeError := fun a b => by
    unfold sub; split_ifs <;> first | exact hadd _ _ | simp
  have hmul : ∀ ov a b, mul ov a b ≠ .error .typeError := fun ov a b => by unfold mul; split_ifs <;> simp
  have hcomp : ∀ ov a b, compose ov a b ≠ .error .typeError := fun ov a b => by unfold compose; split_ifs <;> simp
  have hcat : ∀ ov a b, concat ov a b ≠ .error .typeError := fun ov a b => by unfold concat; split_ifs <;> simp
  have hdot : ∀ ov a b, dotOp ov a b ≠ .error .typeError := fun ov a b => by unfold dotOp mkDot; split_ifs <;> simp
  cases c <;> cases op <;> simp [methods] at ho <;> (try rcases ho with rfl | rfl) <;> simp [hadd, hsub, hmul, hcomp, hcat, hdot]

theorem lookup_mem {c : Cls} {op : Op} {o : Overload} (h : o ∈ lookup c op) : ∃ k, o ∈ methods k op := by
  unfold lookup at h
  cases hf : (c.mro.map fun k => methods k op).find? fun l => !l.isEmpty with
  | none => rw [hf] at h; simp at h
  | some l =>
    rw [hf] at h
    obtain ⟨k, -, hk⟩ := List.mem_map.mp (List.mem_of_find?_eq_some hf)
    exact ⟨k, by rw [hk]; exact h⟩

theorem invoke_typeError (op : Op) (f g : Fn) : invoke op (.fn f) (.fn g) = .error .typeError ↔
    ∀ o ∈ lookup (classOf f) op, o.arg ∉ (classOf g).mro := by
  cases hf : (lookup (classOf f) op).find? fun o => (classOf g).mro.contains o.arg with
  | none => exact iff_of_true (by unfold invoke; dsimp only; rw [hf]) (by simpa using hf)
  | some o =>
    obtain ⟨k, hk⟩ := lookup_mem (List.mem_of_find?_eq_some hf)
    refine iff_of_false ?_ fun h => h o (List.mem_of_find?_eq_some hf) (by simpa using List.find?_some hf)
    unfold invoke
    dsimp only
    rw [hf]
    dsimp only
    split_ifs
    · simp
    · exact bind_fn_ne_typeError (exec_ne_typeError hk f g)

/-! ## C81 -/

/-- **C81**, exactly when Python raises `TypeError`: for `+`, `-` and `*` if one of the operands is a spline; for `f.compose(g)` and `f.concat(g)` if `g` is a spline and `f` is not; for `dot` never;
and whenever the argument is not a function. -/
theorem C81_typeError_iff (op : Op) (f : Fn) (b : Obj) : invoke op (.fn f) b = .error .typeError ↔ Refused op f b := by
  cases b with
  | other => exact iff_of_true rfl trivial
  | fn g =>
    rw [invoke_typeError]
    have bg : Cls.functionBase ∈ (classOf g).mro := base_mem g
    have h1 : Cls.functionExpression ∈ (classOf g).mro ↔ isExpr g = true := expr_mem
    have h2 : Cls.function ∈ (classOf g).mro ↔ isExpr g = false ∧ ¬ IsSpline g := function_mem
    have h3 : (isExpr g = false ∧ (isExpr g = false → IsSpline g)) ↔ IsSpline g :=
      ⟨fun h => h.2 h.1, fun h => ⟨by obtain ⟨s, rfl⟩ := h; rfl, fun _ => h⟩⟩
    by_cases hs : IsSpline f
    · obtain ⟨s, rfl⟩ := hs
      have hs : IsSpline (.gspl s) := ⟨s, rfl⟩
      rw [show classOf (.gspl s) = .gspline from rfl, lookup_spline]
      cases op <;> simp [methods, Refused, bg, hs]
    · have hl : ∀ op, (lookup (classOf f) op).map (fun o => o.arg) = if op = .dot then (lookup (classOf f) op).map (fun o => o.arg)
          else [.functionExpression, .function] := by
        intro op
        cases f <;> first | exact absurd ⟨_, rfl⟩ hs | (cases op <;> rfl)
      have hl' : op ≠ .dot → ((∀ o ∈ lookup (classOf f) op, o.arg ∉ (classOf g).mro) ↔ IsSpline g) := by
        intro hop
        have e := hl op
        rw [if_neg hop] at e
        rw [← h3, show (∀ o ∈ lookup (classOf f) op, o.arg ∉ (classOf g).mro) ↔ ∀ c ∈ (lookup (classOf f) op).map (fun o => o.arg), c ∉ (classOf g).mro by simp, e]
        simp [h1, h2]
      have hd : Cls.functionBase ∈ (lookup (classOf f) .dot).map (fun o => o.arg) := by
        cases f <;> simp [classOf] <;> first | exact ⟨_, List.mem_cons_self .., rfl⟩
      cases op with
      | dot =>
        refine iff_of_false (fun h => ?_) id
        obtain ⟨o, ho, e⟩ := List.mem_map.mp hd
        exact h o ho (e ▸ bg)
      | _ => rw [hl' (by decide)]; simp [Refused, hs]

/-- Both outcomes of `C81_typeError_iff` occur: a spline concatenated with an exponential function is accepted, the other way around it is not. -/
example (s : GSpline) (d : ℝ × ℝ) : ¬ Refused .concat (.gspl s) (.fn (.exp d)) ∧ Refused .concat (.exp d) (.fn (.gspl s)) :=
  ⟨fun h => Fn.noConfusion h.1.choose_spec, ⟨s, rfl⟩, fun h => Fn.noConfusion h.choose_spec⟩

/-- **C81**, one operation. Without splines and functions written in Python, each operator and method does what the C++ operation does for two named variables. Missing: splines and functions written in Python,
for which it is false (below). -/
theorem C81_operators_partial (op : Op) (f g : Fn) (hf : Plain f) (hg : Plain g) :
    invoke op (.fn f) (.fn g) = (do return .fn (← cpp op f g)) := invoke_plain op hf hg

theorem invokeNeg_plain {f : Fn} (hf : Plain f) : invokeNeg (.fn f) = .ok (.fn f.neg) := by
  cases f with
  | gspl g => exact absurd ⟨g, rfl⟩ hf.1
  | user d c F => exact absurd ⟨d, c, F, rfl⟩ hf.2
  | _ => rfl

theorem toExpr_deriv {f : Fn} (h : isExpr f = false) (n : ℕ) : f.toExpr.deriv n = f.derivate n := by
  have hc : f.clone.deriv n = f.deriv n := by
    cases f with
    | ident d => simp only [clone, Fn.deriv]
    | _ => rfl
  have he : f.toExpr = .expr f.dom f.codim .unique [f.clone] := by
    cases f with
    | expr => simp [isExpr] at h
    | _ => rfl
  rw [he]
  unfold derivate
  simp only [Fn.deriv, derivs, hc, bind, Except.bind, pure, Except.pure]
  cases f.deriv n with
  | error e => rfl
  | ok r => simp [derivLin, dom_clone, codim_clone]

theorem invokeDeriv_plain {f : Fn} (hf : Plain f) (n : ℕ) : invokeDeriv (.fn f) n = (do return .fn (← cppDeriv f n)) := by
  cases f with
  | gspl g => exact absurd ⟨g, rfl⟩ hf.1
  | user d c F => exact absurd ⟨d, c, F, rfl⟩ hf.2
  | expr d c ty l => rfl
  | _ => exact congrArg (fun r : Res Fn => (do return Obj.fn (← r) : Res Obj)) (toExpr_deriv rfl n)

theorem derivLin_form {ty : Ty} {l ds : List Fn} {r : Fn} (h : derivLin ty l ds = .ok r) : isExpr r = true := by
  unfold derivLin at h
  cases l with
  | nil => dsimp only at h; split_ifs at h
  | cons a l =>
    dsimp only at h
    split_ifs at h
    all_goals (cases h; rfl)

theorem firstDerivMul_form {l ds : List Fn} {r : Fn} (h : firstDerivMul l ds = .ok r) : isExpr r = true := by
  unfold firstDerivMul at h
  split at h
  · cases h; rfl
  · cases h

theorem firstDerivComp_form {l ds : List Fn} {r : Fn} (h : firstDerivComp l ds = .ok r) : isExpr r = true := by
  unfold firstDerivComp at h
  split at h
  · cases h; rfl
  · cases h

theorem bind_ok {α β : Type} {x : Res α} {k : α → Res β} {b : β} (h : (x >>= k) = .ok b) : ∃ a, x = .ok a ∧ k a = .ok b := by
  cases x with
  | error e => cases h
  | ok a => exact ⟨a, rfl, h⟩

theorem d1_form {f r : Fn} (hf : isExpr f = true) (h : f.d1 = .ok r) : isExpr r = true := by
  cases f with
  | expr d c ty l =>
    cases ty <;> (simp only [d1] at h; obtain ⟨ds, -, h⟩ := bind_ok h)
    · exact derivLin_form h
    · exact firstDerivMul_form h
    · exact firstDerivComp_form h
    all_goals exact derivLin_form h
  | _ => simp [isExpr] at hf

theorem iterD1_form {n : ℕ} {f r : Fn} (hf : isExpr f = true) (h : iterD1 n f = .ok r) : isExpr r = true := by
  induction n generalizing f with
  | zero => cases h; exact hf
  | succ n ih =>
    obtain ⟨g, hg, h⟩ := bind_ok h
    exact ih (d1_form hf hg) h

theorem deriv_form {f r : Fn} {n : ℕ} (hf : isExpr f = true) (h : f.deriv n = .ok r) : isExpr r = true := by
  cases f with
  | expr d c ty l =>
    cases ty with
    | mul =>
      cases n with
      | zero => cases l <;> (simp only [Fn.deriv] at h; cases h); rfl
      | succ n =>
        simp only [Fn.deriv] at h
        obtain ⟨ds, -, h⟩ := bind_ok h
        obtain ⟨g, hg, h⟩ := bind_ok h
        exact iterD1_form (firstDerivMul_form hg) h
    | comp =>
      cases n with
      | zero => cases l <;> (simp only [Fn.deriv] at h; cases h); rfl
      | succ n =>
        simp only [Fn.deriv] at h
        obtain ⟨ds, -, h⟩ := bind_ok h
        obtain ⟨g, hg, h⟩ := bind_ok h
        exact iterD1_form (firstDerivComp_form hg) h
    | _ =>
      simp only [Fn.deriv] at h
      obtain ⟨ds, -, h⟩ := bind_ok h
      exact derivLin_form h
  | _ => simp [isExpr] at hf

theorem plain_of_isExpr {f : Fn} (h : isExpr f = true) : Plain f := by
  cases f with
  | expr d c ty l => exact plain_expr _ _ _ _
  | _ => simp [isExpr] at h

theorem cppDeriv_plain {f r : Fn} {n : ℕ} (h : cppDeriv f n = .ok r) : Plain r := by
  unfold cppDeriv at h
  split_ifs at h with he
  · exact plain_of_isExpr (deriv_form he h)
  · obtain ⟨g, -, h⟩ := bind_ok h
    cases h
    exact plain_expr _ _ _ _

/-- **C81**, programs. An expression of any size, written in Python with operators and methods on functions that are neither splines nor written in Python, has the value of the
same expression in C++ with a named variable for each intermediate result. Missing: splines and functions written in Python. -/
theorem C81_programs_partial (p : Prog) (hp : PlainProg p) : p.eval = (do return .fn (← meaning p)) ∧ ∀ f, meaning p = .ok f → Plain f := by
  induction p with
  | obj o =>
    cases o with
    | fn f => exact ⟨rfl, fun g hg => by cases hg; exact hp⟩
    | other => exact hp.elim
  | op o a b iha ihb =>
    obtain ⟨ea, pa⟩ := iha hp.1
    obtain ⟨eb, pb⟩ := ihb hp.2
    simp only [Prog.eval, meaning, ea, eb]
    cases ha : meaning a with
    | error e => exact ⟨rfl, fun f hf => by cases hf⟩
    | ok x =>
      cases hb : meaning b with
      | error e => exact ⟨rfl, fun f hf => by cases hf⟩
      | ok y =>
        refine ⟨invoke_plain o (pa x ha) (pb y hb), fun f hf => ?_⟩
        have hf : cpp o x y = .ok f := hf
        rcases cpp_form o x y with h | h | ⟨r, h, hr⟩
        · rw [h] at hf; cases hf
        · rw [h] at hf; cases hf
        · rw [h] at hf; cases hf; exact hr
  | neg a iha =>
    obtain ⟨ea, pa⟩ := iha hp
    simp only [Prog.eval, meaning, ea]
    cases ha : meaning a with
    | error e => exact ⟨rfl, fun f hf => by cases hf⟩
    | ok x => exact ⟨invokeNeg_plain (pa x ha), fun f hf => by cases hf; exact plain_expr _ _ _ _⟩
  | deriv a n iha =>
    obtain ⟨ea, pa⟩ := iha hp
    simp only [Prog.eval, meaning, ea]
    cases ha : meaning a with
    | error e => exact ⟨rfl, fun f hf => by cases hf⟩
    | ok x => exact ⟨invokeDeriv_plain (pa x ha) n, fun f hf => cppDeriv_plain hf⟩

/-- `(Sin((0, 1)) + Exponential((0, 1))) * Cos((0, 1))` is such a program; it evaluates. -/
example : ∃ p r, p = Prog.op .mul (.op .add (.obj (.fn (.sin (0, 1)))) (.obj (.fn (.exp (0, 1))))) (.obj (.fn (.cos (0, 1)))) ∧ PlainProg p ∧
    p.eval = .ok (.fn r) ∧ r.call [0] = .ok [[1]] := by
  have h : PlainProg (Prog.op .mul (.op .add (.obj (.fn (.sin (0, 1)))) (.obj (.fn (.exp (0, 1))))) (.obj (.fn (.cos (0, 1))))) := by
    refine ⟨⟨⟨?_, ?_⟩, ⟨?_, ?_⟩⟩, ⟨?_, ?_⟩⟩ <;> first | exact fun ⟨_, h⟩ => Fn.noConfusion h | exact fun ⟨_, _, _, h⟩ => Fn.noConfusion h
  refine ⟨_, .expr (0, 1) 1 .mul [.expr (0, 1) 1 .sum [.sin (0, 1), .exp (0, 1)], .cos (0, 1)], rfl, h, ?_, ?_⟩
  · rw [(C81_programs_partial _ h).1]
    have h1 : add (.sin (0, 1)) (.exp (0, 1)) = .ok (.expr (0, 1) 1 .sum [.sin (0, 1), .exp (0, 1)]) := by
      unfold add sameDomain
      rw [if_neg (by simp [dom, tol9]), if_neg (by simp [codim])]; rfl
    have h2 : mul (named (.expr (0, 1) 1 .sum [.sin (0, 1), .exp (0, 1)]) (.cos (0, 1))) (.expr (0, 1) 1 .sum [.sin (0, 1), .exp (0, 1)]) (.cos (0, 1)) =
        .ok (.expr (0, 1) 1 .mul [.expr (0, 1) 1 .sum [.sin (0, 1), .exp (0, 1)], .cos (0, 1)]) := by
      unfold mul sameDomain
      rw [if_neg (by simp [dom, tol9]), if_neg (by simp [codim])]
      simp [named, isExpr, dom, codim, splice, parts, clone]
    simp only [meaning, cpp, h1, bind, Except.bind, h2, pure, Except.pure]
  · simp [call, run, evs, evalTy, evalSum, evalMul, scalarRun, codim, pure, Except.pure, bind, Except.bind]

theorem invoke_ok {op : Op} {f g r : Fn} (hf : Plain f) (hg : Plain g) (h : cpp op f g = .ok r) : invoke op (.fn f) (.fn g) = .ok (.fn r) := by
  rw [invoke_plain op hf hg, h]; rfl

theorem invoke_error {op : Op} {f g : Fn} {e : Err} (hf : Plain f) (hg : Plain g) (h : cpp op f g = .error e) : invoke op (.fn f) (.fn g) = .error e := by
  rw [invoke_plain op hf hg, h]; rfl

/-- **C81**, values of `f + g` in Python. Missing: splines and functions written in Python. -/
theorem C81_sum_partial (f g : Fn) (hf : Built f) (hg : Built g) (pf : Plain f) (pg : Plain g) :
    (¬ (|f.dom.1 - g.dom.1| < 1 / 10 ^ 9 ∧ |f.dom.2 - g.dom.2| < 1 / 10 ^ 9 ∧ f.codim = g.codim) → invoke .add (.fn f) (.fn g) = .error .invalidArgument) ∧
    (|f.dom.1 - g.dom.1| < 1 / 10 ^ 9 → |f.dom.2 - g.dom.2| < 1 / 10 ^ 9 → f.codim = g.codim →
      ∃ r, invoke .add (.fn f) (.fn g) = .ok (.fn r) ∧ r.dom = f.dom ∧ r.codim = f.codim ∧
        ∀ ts z, invokeCall (.fn r) ts = .ok z ↔ ∃ x y, invokeCall (.fn f) ts = .ok x ∧ invokeCall (.fn g) ts = .ok y ∧ z = addRows x y) := by
  obtain ⟨h1, h2⟩ := C01_sum f g hf hg
  refine ⟨fun h => invoke_error pf pg (h1 h), fun a b c => ?_⟩
  obtain ⟨r, hr, -, hd, hc, hv⟩ := h2 a b c
  exact ⟨r, invoke_ok pf pg hr, hd, hc, hv⟩

/-- **C81**, values of `f - g` in Python, for a subtrahend that is not built with operators (as in C++, `C02_sub_partial`). Missing: other subtrahends, splines and functions written in Python. -/
theorem C81_difference_partial (f g : Fn) (hf : Built f) (hg : Built g) (hu : g.parts.1 = .unique) (pf : Plain f) (pg : Plain g) :
    (¬ (|f.dom.1 - g.dom.1| < 1 / 10 ^ 9 ∧ |f.dom.2 - g.dom.2| < 1 / 10 ^ 9 ∧ f.codim = g.codim) → invoke .sub (.fn f) (.fn g) = .error .invalidArgument) ∧
    (|f.dom.1 - g.dom.1| < 1 / 10 ^ 9 → |f.dom.2 - g.dom.2| < 1 / 10 ^ 9 → f.codim = g.codim →
      ∃ r, invoke .sub (.fn f) (.fn g) = .ok (.fn r) ∧ r.dom = f.dom ∧ r.codim = f.codim ∧
        ∀ ts z, invokeCall (.fn r) ts = .ok z ↔ ∃ x y, invokeCall (.fn f) ts = .ok x ∧ invokeCall (.fn g) ts = .ok y ∧ z = subRows x y) := by
  obtain ⟨h1, h2⟩ := C02_sub_partial f g hf hg hu
  refine ⟨fun h => invoke_error pf pg (h1 h), fun a b c => ?_⟩
  obtain ⟨r, hr, -, hd, hc, hv⟩ := h2 a b c
  exact ⟨r, invoke_ok pf pg hr, hd, hc, hv⟩

/-- **C81**, values of `f * g` in Python. Missing: splines and functions written in Python. -/
theorem C81_product_partial (f g : Fn) (hf : Built f) (hg : Built g) (pf : Plain f) (pg : Plain g) :
    (¬ (|f.dom.1 - g.dom.1| < 1 / 10 ^ 9 ∧ |f.dom.2 - g.dom.2| < 1 / 10 ^ 9 ∧ (f.codim = 1 ∨ g.codim = 1)) →
      invoke .mul (.fn f) (.fn g) = .error .invalidArgument) ∧
    (|f.dom.1 - g.dom.1| < 1 / 10 ^ 9 → |f.dom.2 - g.dom.2| < 1 / 10 ^ 9 → f.codim = 1 ∨ g.codim = 1 →
      ∃ r, invoke .mul (.fn f) (.fn g) = .ok (.fn r) ∧ (r.dom = f.dom ∨ r.dom = g.dom) ∧ r.codim = max f.codim g.codim ∧
        ∀ ts z, invokeCall (.fn r) ts = .ok z ↔ ∃ x y, invokeCall (.fn f) ts = .ok x ∧ invokeCall (.fn g) ts = .ok y ∧ z = mulRows x y) := by
  obtain ⟨h1, h2⟩ := C03_product (named f g) f g hf hg
  refine ⟨fun h => invoke_error pf pg (h1 h), fun a b c => ?_⟩
  obtain ⟨r, hr, -, hd, hc, hv⟩ := h2 a b c
  exact ⟨r, invoke_ok pf pg hr, hd, hc, hv⟩

/-- **C81**, values of `f.dot(g)` in Python, for all functions that are not written in Python, splines included. -/
theorem C81_dot_partial (f g : Fn) (sf : ¬ IsScripted f) (sg : ¬ IsScripted g) :
    (f.codim ≠ g.codim → invoke .dot (.fn f) (.fn g) = .error .assertFail) ∧
    (f.codim = g.codim → ∃ r, invoke .dot (.fn f) (.fn g) = .ok (.fn r) ∧ r.codim = 1 ∧ r.dom = f.dom ∧
      ∀ ts z, invokeCall (.fn r) ts = .ok z ↔ ∃ x y, invokeCall (.fn f) ts = .ok x ∧ invokeCall (.fn g) ts = .ok y ∧
        z = List.zipWith (fun a b => [(List.zipWith (· * ·) a b).sum]) x y) := by
  have hs1 : scripted f = false := Bool.eq_false_iff.mpr fun h => sf ((scripted_iff f).mp h)
  have hs2 : scripted g = false := Bool.eq_false_iff.mpr fun h => sg ((scripted_iff g).mp h)
  have hi : invoke .dot (.fn f) (.fn g) = (do return .fn (← dotOp ⟨false, false⟩ f g)) := by
    have hl : ∃ l, lookup (classOf f) .dot = ⟨.functionBase, fun f g => dotOp ⟨false, false⟩ f g⟩ :: l := by
      cases f <;> exact ⟨_, rfl⟩
    obtain ⟨l, hl⟩ := hl
    simp [invoke, hl, base_mem g, hs1, hs2]
  obtain ⟨h1, h2⟩ := C08_dot_value f g ⟨false, false⟩
  rw [hi]
  refine ⟨fun h => by rw [h1 h]; rfl, fun h => ?_⟩
  obtain ⟨r, hr, hc, hd, hv⟩ := h2 h
  exact ⟨r, by rw [hr]; rfl, hc, by simpa using hd, hv⟩

theorem parts_unique {f : Fn} (h : isExpr f = false) : f.parts.1 = .unique := by
  cases f with
  | expr => simp [isExpr] at h
  | _ => rfl

/-- What Python executes for `f.compose(g)` and `f.concat(g)`: if the object is a temporary expression, then it is not a composition or concatenation. -/
theorem invoke_chain {op : Op} (hop : op = .compose ∨ op = .concat) {f g : Fn} (hs : IsSpline g → IsSpline f) (sf : ¬ IsScripted f) (sg : ¬ IsScripted g) :
    ∃ ov g', (g' = g ∨ g' = g.wrap) ∧ (ov.this = true → f.parts.1 = .unique) ∧
      invoke op (.fn f) (.fn g) = (do return .fn (← if op = .compose then Fn.compose ov f g' else Fn.concat ov f g')) := by
  by_cases h : IsSpline f
  · have hs2 : scripted g = false := Bool.eq_false_iff.mpr fun h => sg ((scripted_iff g).mp h)
    obtain ⟨s, rfl⟩ := h
    refine ⟨⟨true, true⟩, g.wrap, Or.inr rfl, fun _ => rfl, ?_⟩
    rcases hop with rfl | rfl <;> simp [invoke, show classOf (.gspl s) = .gspline from rfl, lookup_spline, methods, base_mem g, hs2, show scripted (.gspl s) = false from rfl]
  · refine ⟨named f g, g, Or.inl rfl, fun ht => parts_unique (by simpa [named] using ht), ?_⟩
    rw [invoke_plain op ⟨h, sf⟩ ⟨fun hg => h (hs hg), sg⟩]
    rcases hop with rfl | rfl <;> rfl

theorem built_or_wrap {g g' : Fn} (hg : Built g) (h : g' = g ∨ g' = g.wrap) : Built g' ∧ g'.dom = g.dom ∧ g'.codim = g.codim ∧ (∀ ts, g'.call ts = g.call ts) ∧
    (Spec.Joined g → Spec.Joined g') := by
  rcases h with rfl | rfl
  · exact ⟨hg, rfl, rfl, fun _ => rfl, id⟩
  · exact ⟨.wrap hg, rfl, rfl, fun ts => by unfold call; rw [run_wrap]; rfl, fun hj => show g.dom.1 < g.dom.2 from joined_lt hj⟩

/-- **C81**, `f.compose(g)` in Python, for all accepted operands that are not written in Python, splines included. The restriction of `C04_compose_partial` is not needed: the domain is always the one of `g`, because
Python only holds named objects. Missing: functions written in Python, and a spline as argument of a function that is not a spline. -/
theorem C81_compose_partial (f g : Fn) (hf : Built f) (hg : Built g) (sf : ¬ IsScripted f) (sg : ¬ IsScripted g) (hs : IsSpline g → IsSpline f) :
    (g.codim ≠ 1 → invoke .compose (.fn f) (.fn g) = .error .invalidArgument) ∧
    (g.codim = 1 → ∃ r, invoke .compose (.fn f) (.fn g) = .ok (.fn r) ∧ r.dom = g.dom ∧ r.codim = f.codim ∧
      ∀ ts, invokeCall (.fn r) ts = (do let y ← invokeCall (.fn g) ts; invokeCall (.fn f) (y.map fun row => row.headD 0))) := by
  obtain ⟨ov, g', hg', hu, hi⟩ := invoke_chain (Or.inl rfl) hs sf sg
  obtain ⟨hb, hd, hc, hv, -⟩ := built_or_wrap hg hg'
  obtain ⟨h1, h2⟩ := C04_compose_partial ov f g' hf hb
  rw [hi, if_pos rfl]
  refine ⟨fun h => by rw [h1 (hc ▸ h)]; rfl, fun h => ?_⟩
  obtain ⟨r, hr, -, hrc, hrd, hrv⟩ := h2 (hc ▸ h)
  refine ⟨r, by rw [hr]; rfl, ?_, hrc, fun ts => ?_⟩
  · rw [← hd]
    refine hrd fun ⟨ht, _, hp⟩ => ?_
    rw [hu ht] at hp
    cases hp
  · exact (hrv ts).trans (by rw [hv]; rfl)

/-- **C81**, `f.concat(g)` in Python, for all accepted operands that are not written in Python, splines included. The restriction of `C05_concat_partial` is not needed: the domain always runs from the start of `f` to the end of `g`, so
that further functions can be concatenated. Missing: functions written in Python, and a spline as argument of a function that is not a spline. -/
theorem C81_concat_partial (f g : Fn) (hf : Built f) (hg : Built g) (hjf : Spec.Joined f) (hjg : Spec.Joined g) (hc : f.codim = g.codim) (hj : f.dom.2 = g.dom.1)
    (sf : ¬ IsScripted f) (sg : ¬ IsScripted g) (hs : IsSpline g → IsSpline f) :
    ∃ r, invoke .concat (.fn f) (.fn g) = .ok (.fn r) ∧ Built r ∧ Spec.Joined r ∧ r.dom = (f.dom.1, g.dom.2) ∧ r.codim = f.codim ∧ ¬ IsScripted r ∧
      ∀ t, invokeCall (.fn r) [t] = if t < f.dom.2 then invokeCall (.fn f) [max f.dom.1 t] else invokeCall (.fn g) [min t g.dom.2] := by
  obtain ⟨ov, g', hg', hu, hi⟩ := invoke_chain (Or.inr rfl) hs sf sg
  obtain ⟨hb, hd, hc', hv, hj'⟩ := built_or_wrap hg hg'
  obtain ⟨r, hr, hrb, hrc, hrd, hrv⟩ := C05_concat_partial ov f g' hf hb hjf (hj' hjg) (hc.trans hc'.symm) (hj.trans (by rw [hd]))
  obtain ⟨hrd, hrj⟩ := hrd fun ⟨ht, hp⟩ => by
    rw [hu ht] at hp
    cases hp
  refine ⟨r, by rw [hi, if_neg (by decide), hr]; rfl, hrb, hrj, by rw [hrd, hd], hrc, ?_, fun t => ?_⟩
  · unfold Fn.concat at hr
    split_ifs at hr <;> (cases hr; exact (plain_expr _ _ _ _).2)
  · exact (hrv t).trans (by rw [hv, hd]; rfl)

/-- **C81**, chains in Python: `f.concat(g1).concat(g2)...`, for any number of functions whose domains follow each other (splines only as the first function), gives a function on the union of the domains that is equal to each of them on
its domain. In C++ the same expression keeps the domain of the first two functions, because the intermediate results are temporary objects (`C05_domain_false`). -/
theorem C81_chain_partial (f : Fn) (gs : List Fn) (a b : ℝ) (hb : ∀ g ∈ f :: gs, Built g ∧ Spec.Joined g ∧ g.codim = f.codim ∧ ¬ IsScripted g)
    (hs : ∀ g ∈ gs, ¬ IsSpline g) (hp : Pieces (f :: gs) a b) :
    ∃ r, gs.foldlM (fun x g => invoke .concat x (.fn g)) (.fn f) = .ok (.fn r) ∧ r.dom = (a, b) ∧ r.codim = f.codim ∧
      ∀ g ∈ f :: gs, ∀ t, g.dom.1 ≤ t → t < g.dom.2 → invokeCall (.fn r) [t] = invokeCall (.fn g) [t] := by
  induction gs generalizing f a with
  | nil =>
    refine ⟨f, rfl, hp.1, rfl, fun g hg t _ _ => ?_⟩
    rw [List.mem_singleton.mp hg]
  | cons g gs ih =>
    obtain ⟨h1, h2, h3⟩ := pieces_cons_inv hp
    have h3 : Pieces (g :: gs) f.dom.2 b := by
      rcases h3 with h3 | h3
      · cases h3.1
      · exact h3
    obtain ⟨hbf, hjf, -, sf⟩ := hb f (by simp)
    obtain ⟨hbg, hjg, hcg, sg⟩ := hb g (by simp)
    obtain ⟨g1, g2, g3⟩ := pieces_cons_inv h3
    obtain ⟨r, hr, hrb, hrj, hrd, hrc, hrs, hrv⟩ := C81_concat_partial f g hbf hbg hjf hjg hcg.symm g1.symm sf sg fun h => absurd h (hs g (by simp))
    have hpr : Pieces (r :: gs) a b := by
      rcases g3 with ⟨rfl, e⟩ | g3
      · exact ⟨by rw [hrd, h1, e], pieces_lt hp⟩
      · cases gs with
        | nil => exact g3.elim
        | cons k gs =>
          refine ⟨by rw [hrd, ← h1], by rw [hrd]; exact h2.trans g2, ?_⟩
          rw [hrd]; exact g3
    obtain ⟨s, hs', hsd, hsc, hsv⟩ := ih r a (by
      intro x hx
      rcases List.mem_cons.mp hx with rfl | hx
      · exact ⟨hrb, hrj, rfl, hrs⟩
      · rw [hrc]; exact hb x (by simp [hx])) (fun x hx => hs x (by simp [hx])) hpr
    refine ⟨s, by rw [List.foldlM_cons, hr]; exact hs', hsd, hsc.trans hrc, ?_⟩
    intro x hx t ht1 ht2
    simp only [List.mem_cons] at hx
    rcases hx with rfl | rfl | hx
    · rw [hsv r (by simp) t (by rw [hrd]; exact ht1) (by rw [hrd]; exact ht2.trans g2), hrv, if_pos ht2, max_eq_right ht1]
    · rw [hsv r (by simp) t (by rw [hrd]; dsimp only; linarith) (by rw [hrd]; exact ht2), hrv, if_neg (by rw [not_lt, ← g1]; exact ht1),
        min_eq_left ht2.le]
    · exact hsv x (by simp [hx]) t ht1 ht2

/-- The hypotheses of `C81_chain_partial` hold for three functions. -/
example : Pieces [cos (0, 1), sin (1, 2), exp (2, 4)] 0 4 ∧
    (∀ g ∈ [cos (0, 1), sin (1, 2), exp (2, 4)], Built g ∧ Spec.Joined g ∧ g.codim = (cos (0, 1)).codim ∧ ¬ IsScripted g) ∧
    ∀ g ∈ [sin (1, 2), exp (2, 4)], ¬ IsSpline g := by
  refine ⟨⟨rfl, by norm_num [dom], rfl, by norm_num [dom], rfl, ?_⟩, ?_, ?_⟩
  · change (2 : ℝ) < 4; norm_num
  · intro g hg
    simp only [List.mem_cons, List.not_mem_nil, or_false] at hg
    rcases hg with rfl | rfl | rfl
    · exact ⟨.cos _, by norm_num [Spec.Joined, dom], rfl, fun ⟨_, _, _, h⟩ => Fn.noConfusion h⟩
    · exact ⟨.sin _, by norm_num [Spec.Joined, dom], rfl, fun ⟨_, _, _, h⟩ => Fn.noConfusion h⟩
    · exact ⟨.exp _, by norm_num [Spec.Joined, dom], rfl, fun ⟨_, _, _, h⟩ => Fn.noConfusion h⟩
  · intro g hg
    simp only [List.mem_cons, List.not_mem_nil, or_false] at hg
    rcases hg with rfl | rfl <;> exact fun ⟨_, h⟩ => Fn.noConfusion h

/-- **C81 is false for splines:** in Python no spline can be added, subtracted, multiplied or negated, with whatever other operand and on either side, although the C++ operators accept them (here, the sum of a spline and itself). -/
theorem C81_spline_false (s : GSpline) (op : Op) (hop : op = .add ∨ op = .sub ∨ op = .mul) (f : Fn) (b : Obj) :
    invoke op (.fn (.gspl s)) b = .error .typeError ∧ invoke op (.fn f) (.fn (.gspl s)) = .error .typeError ∧ invokeNeg (.fn (.gspl s)) = .error .typeError ∧
      ∃ r, add (.gspl s) (.gspl s) = .ok r := by
  refine ⟨(C81_typeError_iff op _ b).mpr ?_, (C81_typeError_iff op f _).mpr ?_, rfl, ?_⟩
  · cases b with
    | other => trivial
    | fn g => rcases hop with rfl | rfl | rfl <;> exact Or.inl ⟨s, rfl⟩
  · rcases hop with rfl | rfl | rfl <;> exact Or.inr ⟨s, rfl⟩
  · unfold add sameDomain
    rw [if_neg (by simp [tol9]), if_neg (by simp)]
    exact ⟨_, rfl⟩

/-- **C81 is false for splines:** a function that is not a spline cannot be concatenated or composed with a spline in Python, although the C++ operation succeeds (here, an exponential function on an interval of length one and a spline that starts where it ends). The
other way around it is accepted (`C81_concat_partial`). -/
theorem C81_spline_argument_false (s : GSpline) (hs : s.codim = 1) (ho : s.dom.1 ≤ s.dom.2) (op : Op) (hop : op = .compose ∨ op = .concat) (f : Fn) (hf : ¬ IsSpline f) :
    invoke op (.fn f) (.fn (.gspl s)) = .error .typeError ∧ ∃ r, concat ⟨true, true⟩ (.exp (s.dom.1 - 1, s.dom.1)) (.gspl s) = .ok r := by
  refine ⟨(C81_typeError_iff op f _).mpr ?_, ?_⟩
  · rcases hop with rfl | rfl <;> exact ⟨⟨s, rfl⟩, hf⟩
  · unfold concat
    rw [if_neg (by simp [codim, hs]), if_neg (by simp [dom, tol9]), if_neg (by simp [parts]), if_pos (by simp only [dom]; linarith)]
    exact ⟨_, rfl⟩

/-- **C81 is false for functions written in Python:** they can be evaluated, but every operation that accepts them, on either side, and minus and the derivatives of every order use memory that does not belong to them. -/
theorem C81_scripted_false (d : ℝ × ℝ) (c : ℕ) (F : ℕ → ℝ → ℕ → ℝ) (op : Op) (g : Fn) (n : ℕ) (ts : List ℝ) :
    invokeCall (.fn (.user d c F)) ts = .ok (ts.map fun t => (List.range c).map (F 0 t)) ∧
    (¬ Refused op (.user d c F) (.fn g) → invoke op (.fn (.user d c F)) (.fn g) = .error .ub) ∧
    (¬ Refused op g (.fn (.user d c F)) → invoke op (.fn g) (.fn (.user d c F)) = .error .ub) ∧
    invokeNeg (.fn (.user d c F)) = .error .ub ∧ invokeDeriv (.fn (.user d c F)) n = .error .ub := by
  have key : ∀ f g : Fn, scripted f = true ∨ scripted g = true → ¬ Refused op f (.fn g) → invoke op (.fn f) (.fn g) = .error .ub := by
    intro f g h hr
    rw [← C81_typeError_iff] at hr
    unfold invoke at hr ⊢
    dsimp only at hr ⊢
    cases hf : (lookup (classOf f) op).find? fun o => (classOf g).mro.contains o.arg with
    | none => rw [hf] at hr; exact absurd rfl hr
    | some o => exact if_pos h
  exact ⟨by simp [invokeCall, call, run, codim], key _ _ (Or.inl rfl), key _ _ (Or.inr rfl), rfl, rfl⟩

/-- The hypotheses of `C81_scripted_false` hold: `f + exp` and `exp.concat(f)`, for a function `f` written in Python. -/
example (d : ℝ × ℝ) (c : ℕ) (F : ℕ → ℝ → ℕ → ℝ) : ¬ Refused .add (.user d c F) (.fn (.exp d)) ∧ ¬ Refused .concat (.exp d) (.fn (.user d c F)) :=
  ⟨fun h => h.elim (fun ⟨_, h⟩ => Fn.noConfusion h) (fun ⟨_, h⟩ => Fn.noConfusion h), fun h => Fn.noConfusion h.1.choose_spec⟩

/-- **C81**, `f.deriv(n)` in Python, splines included: it evaluates to the `n`-th derivative. Missing: functions written in Python, and what is missing in `C06_derivative_partial`. -/
theorem C81_derivative_partial (f : Fn) (hf : Regular f) (sf : ¬ IsScripted f) (n : ℕ) (hn : OrderOk n f) :
    ∃ r, invokeDeriv (.fn f) n = .ok (.fn r) ∧ r.dom = f.dom ∧ r.codim = f.codim ∧
      ∀ t, Smooth f t → invokeCall (.fn r) [t] = .ok [(List.range f.codim).map fun k => iteratedDeriv n (val f k) t] := by
  by_cases hs : IsSpline f
  · obtain ⟨r, hr, hd, hc, hv⟩ := C06_derivative_partial f hf n hn
    obtain ⟨s, rfl⟩ := hs
    refine ⟨r, ?_, hd, hc, hv⟩
    change (do return Obj.fn (← (Fn.gspl s).deriv n) : Res Obj) = _
    rw [hr]; rfl
  rw [invokeDeriv_plain ⟨hs, sf⟩ n]
  unfold cppDeriv
  split_ifs
  · obtain ⟨r, hr, hd, hc, hv⟩ := C06_derivative_partial f hf n hn
    exact ⟨r, by rw [hr]; rfl, hd, hc, hv⟩
  · obtain ⟨r, hr, hd, hc, hv⟩ := C06_derivate_partial f hf n hn
    exact ⟨r, by rw [hr]; rfl, hd, hc, hv⟩

/-- The hypotheses of `C81_derivative_partial` hold for the sine. -/
example (d : ℝ × ℝ) (n : ℕ) : Regular (.sin d) ∧ ¬ IsScripted (.sin d) ∧ OrderOk n (.sin d) :=
  ⟨.sin d, fun ⟨_, _, _, h⟩ => Fn.noConfusion h, .sin d⟩

end GSplines.Props
