import Verif.Spec.Own
import Verif.Proofs.FnConcat

/-! # Proofs about programs on function expressions as objects -/

namespace GSplines.Own

open Spec.Own

section basics

variable {α β : Type} (σ : Store)

theorem bind_app (m : M α) (f : α → M β) : (m >>= f) σ = match m σ with
    | (.ok a, σ') => f a σ'
    | (.error e, σ') => (.error e, σ') := rfl

theorem bind_ok {m : M α} {f : α → M β} {a : α} {σ σ' : Store} (h : m σ = (.ok a, σ')) : (m >>= f) σ = f a σ' := by
  rw [bind_app, h]

theorem pure_app (a : α) : (pure a : M α) σ = (.ok a, σ) := rfl

theorem stop_app (e : Stop) : (stop e : M α) σ = (.error e, σ) := rfl

theorem lift_app (r : Except Stop α) : lift r σ = (r, σ) := rfl

theorem put_app (x : ℕ) (o : Obj) : put x o σ = (.ok (), update σ x o) := rfl

theorem get_some {x : ℕ} {o : Obj} (h : σ x = some o) : get x σ = (.ok o, σ) := by
  unfold get; rw [h]

theorem update_same (x : ℕ) (o : Obj) : update σ x o x = some o := by simp [update]

theorem update_ne {x w : ℕ} (o : Obj) (h : w ≠ x) : update σ x o w = σ w := by simp [update, h]

end basics

/-! ## lists of pointers -/

theorem clones_cons_ok {p : Ptr} {l : List Ptr} : clones (p :: l) = .ok (p :: l) ↔ clone p = .ok p ∧ clones l = .ok l := by
  rw [clones]
  rcases h : clone p with e | p' <;> rcases h' : clones l with e' | l' <;> simp [bind, Except.bind, pure, Except.pure]

theorem clones_append_ok {l m : List Ptr} : clones (l ++ m) = .ok (l ++ m) ↔ clones l = .ok l ∧ clones m = .ok m := by
  induction l with
  | nil => simp [clones]
  | cons p l ih => rw [List.cons_append, clones_cons_ok, clones_cons_ok, ih, and_assoc]

theorem clone_ptr {o : Obj} : clone o.ptr = .ok o.ptr ↔ clones o.arr = .ok o.arr := by
  unfold Obj.ptr
  rw [clone]
  rcases h : clones o.arr with e | l <;> simp [bind, Except.bind, pure, Except.pure]

theorem values_append {l m : List Ptr} {fs gs : List Fn} (h : values l = some fs) (h' : values m = some gs) : values (l ++ m) = some (fs ++ gs) := by
  induction l generalizing fs with
  | nil => simp only [values, Option.some.injEq] at h; subst h; simpa using h'
  | cons p l ih =>
    rw [values] at h
    rcases hp : value p with _ | f
    · rw [hp] at h; simp at h
    rcases hl : values l with _ | fs'
    · rw [hp, hl] at h; simp at h
    rw [hp, hl] at h
    obtain rfl : f :: fs' = fs := by simpa using h
    rw [List.cons_append, values, hp, ih hl]
    rfl

theorem values_single {p : Ptr} {f : Fn} (h : value p = some f) : values [p] = some [f] := by
  rw [values, h]; rfl

theorem value_ptr {o : Obj} {l : List Fn} (h : values o.arr = some l) : value o.ptr = some (.expr o.dom o.codim o.ty l) := by
  unfold Obj.ptr
  rw [value, h]; rfl

/-- The object of a name represents a function, and copying its elements gives the same elements. -/
def Is (σ : Store) (x : ℕ) (f : Fn) : Prop :=
  ∃ o l, σ x = some o ∧ clones o.arr = .ok o.arr ∧ values o.arr = some l ∧ f = .expr o.dom o.codim o.ty l

/-- The objects represent the functions of the variables. -/
def Rep (σ : Store) (E : Env) : Prop := ∀ x f, E x = some f → Is σ x f

theorem Is.congr {σ σ' : Store} {x : ℕ} {f : Fn} (h : Is σ x f) (e : σ' x = σ x) : Is σ' x f := by
  obtain ⟨o, l, h1, h2⟩ := h
  exact ⟨o, l, e.trans h1, h2⟩

/-- What an operand contributes to a list. -/
def piece (c : Prop) [Decidable c] (o : Obj) : List Ptr := if c then o.arr else [o.ptr]

theorem clones_piece (c : Prop) [Decidable c] {o : Obj} (h : clones o.arr = .ok o.arr) : clones (piece c o) = .ok (piece c o) := by
  unfold piece
  split
  · exact h
  · exact clones_cons_ok.2 ⟨clone_ptr.2 h, rfl⟩

theorem values_piece (c : Prop) [Decidable c] {o : Obj} {l : List Fn} (h : values o.arr = some l) :
    values (piece c o) = some (if c then l else [.expr o.dom o.codim o.ty l]) := by
  unfold piece
  split
  · exact h
  · exact values_single (value_ptr h)

/-! ## taking operands -/

/-- A computation that gives `a` and changes at most the object `x`, if it is an rvalue. -/
def Gives {α : Type} (m : M α) (σ : Store) (rv : Bool) (x : ℕ) (a : α) : Prop :=
  ∃ σ', m σ = (.ok a, σ') ∧ ∀ w, ¬(rv = true ∧ w = x) → σ' w = σ w

theorem newFrom_gives {σ : Store} {x : ℕ} {o : Obj} (rv : Bool) (h : σ x = some o) (hc : clones o.arr = .ok o.arr) : Gives (newFrom rv x) σ rv x o := by
  unfold newFrom
  cases rv
  · refine ⟨σ, ?_, fun _ _ => rfl⟩
    simp only [Bool.false_eq_true, if_false]
    unfold copyOf
    rw [bind_ok (get_some σ h), bind_app, lift_app, hc]
    rfl
  · refine ⟨update σ x { o with arr := [] }, ?_, fun w hw => update_ne _ _ (by simpa using hw)⟩
    simp only [if_true]
    unfold moveFrom
    rw [bind_ok (get_some σ h), bind_ok (put_app _ _ _)]
    rfl

theorem elementsOf_gives {σ : Store} {x : ℕ} {o : Obj} (rv : Bool) (h : σ x = some o) (hc : clones o.arr = .ok o.arr) :
    Gives (elementsOf rv x) σ rv x o.arr := by
  unfold elementsOf
  cases rv
  · refine ⟨σ, ?_, fun _ _ => rfl⟩
    rw [bind_ok (get_some σ h)]
    simp only [Bool.false_eq_true, if_false]
    rw [lift_app, hc]
  · refine ⟨update σ x { o with arr := o.arr.map fun _ => .null }, ?_, fun w hw => update_ne _ _ (by simpa using hw)⟩
    rw [bind_ok (get_some σ h)]
    simp only [if_true]
    rw [bind_ok (put_app _ _ _)]
    rfl

theorem take_piece {σ : Store} {x : ℕ} {o : Obj} (rv : Bool) (c : Prop) [Decidable c] (h : σ x = some o) (hc : clones o.arr = .ok o.arr) :
    Gives (if c then elementsOf rv x else do return [(← newFrom rv x).ptr]) σ rv x (piece c o) := by
  unfold piece
  by_cases hh : c
  · rw [if_pos hh, if_pos hh]; exact elementsOf_gives rv h hc
  · rw [if_neg hh, if_neg hh]
    obtain ⟨σ', e, hσ⟩ := newFrom_gives rv h hc
    exact ⟨σ', by rw [bind_ok e]; rfl, hσ⟩

theorem contribution_gives {σ : Store} {x : ℕ} {o : Obj} (rv : Bool) (ty : Ty) (h : σ x = some o) (hc : clones o.arr = .ok o.arr) :
    Gives (contribution rv ty x) σ rv x (piece (o.ty = ty ∨ o.ty = .unique) o) := by
  obtain ⟨σ', e, hσ⟩ := take_piece rv (o.ty = ty ∨ o.ty = .unique) h hc
  refine ⟨σ', ?_, hσ⟩
  unfold contribution
  rw [bind_ok (get_some σ h)]
  exact e

theorem link_gives {σ : Store} {x : ℕ} {o : Obj} (rv : Bool) (ty : Ty) (h : σ x = some o) (hc : clones o.arr = .ok o.arr) :
    Gives (link rv ty x) σ rv x (piece (o.ty = ty) o) := by
  obtain ⟨σ', e, hσ⟩ := take_piece rv (o.ty = ty) h hc
  refine ⟨σ', ?_, hσ⟩
  unfold link
  rw [bind_ok (get_some σ h)]
  exact e

/-! ## the operations -/

/-- A new object that represents `f`. -/
def Obj.Is (o : Obj) (f : Fn) : Prop := ∃ l, clones o.arr = .ok o.arr ∧ values o.arr = some l ∧ f = .expr o.dom o.codim o.ty l

/-- An operation on the objects `x` and `y` does what the result on functions says. -/
def Refines (m : M Obj) (σ : Store) (rx : Bool) (x : ℕ) (ry : Bool) (y : ℕ) : Res Fn → Prop
  | .ok f => ∃ o σ', m σ = (.ok o, σ') ∧ o.Is f ∧ ∀ w, ¬(rx = true ∧ w = x) → ¬(ry = true ∧ w = y) → σ' w = σ w
  | .error e => ∃ σ', m σ = (.error (.thrown e), σ') ∧ (e = .invalidArgument → σ' = σ)

theorem Obj.Is.append {d : ℝ × ℝ} {c : ℕ} {ty : Ty} {l m : List Ptr} {fs gs : List Fn} (h : clones l = .ok l) (h' : clones m = .ok m)
    (v : values l = some fs) (v' : values m = some gs) : Obj.Is ⟨d, c, ty, l ++ m⟩ (.expr d c ty (fs ++ gs)) :=
  ⟨_, clones_append_ok.2 ⟨h, h'⟩, values_append v v', rfl⟩

theorem Refines.mk_ok {m : M Obj} {σ σ' : Store} {rx ry : Bool} {x y : ℕ} {f : Fn} {o : Obj} (h : o.Is f) (e : m σ = (.ok o, σ'))
    (hσ : ∀ w, ¬(rx = true ∧ w = x) → ¬(ry = true ∧ w = y) → σ' w = σ w) : Refines m σ rx x ry y (.ok f) := ⟨o, σ', e, h, hσ⟩

/-- Two operands are taken one after the other. -/
theorem both_gives {α β : Type} {m : M α} {m' : M β} {σ : Store} {rx ry : Bool} {x y : ℕ} {a : α} {b : β} (h : Gives m σ rx x a)
    (h' : ∀ σ', σ' y = σ y → Gives m' σ' ry y b) (hs : x ≠ y ∨ rx = false) :
    ∃ σ' σ'', m σ = (.ok a, σ') ∧ m' σ' = (.ok b, σ'') ∧ ∀ w, ¬(rx = true ∧ w = x) → ¬(ry = true ∧ w = y) → σ'' w = σ w := by
  obtain ⟨σ', e, hσ⟩ := h
  obtain ⟨σ'', e', hσ'⟩ := h' σ' (hσ y (by rcases hs with hs | hs <;> simp [hs, Ne.symm]))
  exact ⟨σ', σ'', e, e', fun w h1 h2 => (hσ' w h2).trans (hσ w h1)⟩

theorem sumThrow_ok {f g : Obj} (h1 : f.sameDomain g) (h2 : f.codim = g.codim) (σ : Store) : sumThrow f g σ = (.ok (), σ) := by
  unfold sumThrow; rw [if_neg (not_not.2 h1), if_neg (not_not.2 h2)]; rfl

theorem add_refines {σ : Store} {x y : ℕ} {f g : Fn} (rx ry : Bool) (hf : Is σ x f) (hg : Is σ y g) (hs : x ≠ y ∨ rx = false) :
    Refines (add rx ry x y) σ rx x ry y (Fn.add f g) := by
  obtain ⟨o, l, ho, hc, hv, rfl⟩ := hf
  obtain ⟨o', l', ho', hc', hv', rfl⟩ := hg
  have e : add rx ry x y σ = (do
      sumThrow o o'
      let l1 ← contribution rx .sum x
      let l2 ← contribution ry .sum y
      return ⟨o.dom, o.codim, .sum, l1 ++ l2⟩ : M Obj) σ := by
    unfold add
    rw [bind_ok (get_some σ ho), bind_ok (get_some σ ho')]
  unfold Fn.add
  by_cases h1 : o.sameDomain o'
  · have H1 : Fn.sameDomain (.expr o.dom o.codim o.ty l) (.expr o'.dom o'.codim o'.ty l') := h1
    rw [if_neg (not_not.2 H1)]
    by_cases h2 : o.codim = o'.codim
    · rw [if_neg (not_not.2 (show (Fn.codim (.expr o.dom o.codim o.ty l)) = (Fn.codim (.expr o'.dom o'.codim o'.ty l')) from h2))]
      obtain ⟨σ', σ'', e1, e2, hσ⟩ := both_gives (contribution_gives rx .sum ho hc)
        (fun σ' h => contribution_gives ry .sum (h.trans ho') hc') hs
      refine Refines.mk_ok (Obj.Is.append (clones_piece _ hc) (clones_piece _ hc') (values_piece _ hv) (values_piece _ hv')) ?_ hσ
      rw [e, bind_ok (sumThrow_ok h1 h2 σ), bind_ok e1, bind_ok e2]; rfl
    · rw [if_pos (show (Fn.codim (.expr o.dom o.codim o.ty l)) ≠ (Fn.codim (.expr o'.dom o'.codim o'.ty l')) from h2)]
      refine ⟨σ, ?_, fun _ => rfl⟩
      rw [e, bind_app, sumThrow, if_neg (not_not.2 h1), if_pos h2]; rfl
  · have H1 : ¬ Fn.sameDomain (.expr o.dom o.codim o.ty l) (.expr o'.dom o'.codim o'.ty l') := h1
    rw [if_pos H1]
    refine ⟨σ, ?_, fun _ => rfl⟩
    rw [e, bind_app, sumThrow, if_pos h1]; rfl

theorem neg_gives {σ : Store} {x : ℕ} {o : Obj} (rv : Bool) (h : σ x = some o) (hc : clones o.arr = .ok o.arr) :
    Gives (neg rv x) σ rv x { o with ty := .neg } := by
  obtain ⟨σ', e, hσ⟩ := newFrom_gives rv h hc
  exact ⟨σ', by unfold neg; rw [bind_ok e]; rfl, hσ⟩

theorem sub_refines {σ : Store} {x y : ℕ} {f g : Fn} (rx ry : Bool) (hf : Is σ x f) (hg : Is σ y g) (hs : x ≠ y ∨ ry = false) :
    Refines (sub rx ry x y) σ rx x ry y (Fn.sub f g) := by
  obtain ⟨o, l, ho, hc, hv, rfl⟩ := hf
  obtain ⟨o', l', ho', hc', hv', rfl⟩ := hg
  have e : sub rx ry x y σ = (do
      sumThrow o o'
      let t ← neg ry y
      let f ← get x
      sumThrow f t
      let l1 ← contribution rx .sum x
      return ⟨f.dom, f.codim, .sum, l1 ++ [t.ptr]⟩ : M Obj) σ := by
    unfold sub
    rw [bind_ok (get_some σ ho), bind_ok (get_some σ ho')]
  unfold Fn.sub Fn.add
  by_cases h1 : o.sameDomain o'
  · have H1 : Fn.sameDomain (.expr o.dom o.codim o.ty l) (.expr o'.dom o'.codim o'.ty l') := h1
    have H1' : Fn.sameDomain (.expr o.dom o.codim o.ty l) (Fn.neg (.expr o'.dom o'.codim o'.ty l')) := h1
    rw [if_neg (not_not.2 H1), if_neg (not_not.2 H1')]
    by_cases h2 : o.codim = o'.codim
    · rw [if_neg (not_not.2 (show (Fn.codim (.expr o.dom o.codim o.ty l)) = (Fn.codim (.expr o'.dom o'.codim o'.ty l')) from h2)), if_neg (not_not.2 (show (Fn.codim (.expr o.dom o.codim o.ty l)) = (Fn.codim (Fn.neg (.expr o'.dom o'.codim o'.ty l'))) from h2))]
      obtain ⟨σ', σ'', e1, e2, hσ⟩ := both_gives (neg_gives ry ho' hc')
        (fun σ' h => contribution_gives rx .sum (h.trans ho) hc) (by rcases hs with hs | hs; exacts [Or.inl (Ne.symm hs), Or.inr hs])
      have ho2 : σ' x = some o := by
        obtain ⟨τ, eτ, hτ⟩ := neg_gives ry ho' hc'
        obtain rfl : τ = σ' := by rw [eτ] at e1; exact (Prod.ext_iff.1 e1).2
        rw [hτ x (by rcases hs with hs | hs <;> simp [hs]), ho]
      refine Refines.mk_ok (Obj.Is.append (clones_piece _ hc) (clones_cons_ok.2 ⟨(clone_ptr (o := { o' with ty := .neg })).2 hc', rfl⟩)
        (values_piece _ hv) (values_single (value_ptr (o := { o' with ty := .neg }) hv'))) ?_ (fun w h h' => hσ w h' h)
      rw [e, bind_ok (sumThrow_ok h1 h2 σ), bind_ok e1, bind_ok (get_some _ ho2), bind_ok (sumThrow_ok (g := { o' with ty := .neg }) h1 h2 σ'), bind_ok e2]; rfl
    · rw [if_pos (show (Fn.codim (.expr o.dom o.codim o.ty l)) ≠ (Fn.codim (.expr o'.dom o'.codim o'.ty l')) from h2)]
      refine ⟨σ, ?_, fun _ => rfl⟩
      rw [e, bind_app, sumThrow, if_neg (not_not.2 h1), if_pos h2]; rfl
  · have H1 : ¬ Fn.sameDomain (.expr o.dom o.codim o.ty l) (.expr o'.dom o'.codim o'.ty l') := h1
    rw [if_pos H1]
    refine ⟨σ, ?_, fun _ => rfl⟩
    rw [e, bind_app, sumThrow, if_pos h1]; rfl

theorem mul_refines {σ : Store} {x y : ℕ} {f g : Fn} (rx ry : Bool) (hf : Is σ x f) (hg : Is σ y g) (hs : x ≠ y ∨ rx = false) :
    Refines (mul rx ry x y) σ rx x ry y (Fn.mul ⟨rx, ry⟩ f g) := by
  obtain ⟨o, l, ho, hc, hv, rfl⟩ := hf
  obtain ⟨o', l', ho', hc', hv', rfl⟩ := hg
  have e : mul rx ry x y σ = (do
      mulThrow o o'
      if o'.codim ≤ o.codim then do
        let l1 ← contribution rx .mul x
        let l2 ← contribution ry .mul y
        return ⟨o.dom, o.codim, .mul, l1 ++ l2⟩
      else do
        let l1 ← contribution ry .mul y
        let l2 ← contribution rx .mul x
        return ⟨if rx ∨ ry then o.dom else o'.dom, o'.codim, .mul, l1 ++ l2⟩ : M Obj) σ := by
    unfold mul
    rw [bind_ok (get_some σ ho), bind_ok (get_some σ ho')]
  unfold Fn.mul
  by_cases h1 : o.sameDomain o'
  · have H1 : Fn.sameDomain (.expr o.dom o.codim o.ty l) (.expr o'.dom o'.codim o'.ty l') := h1
    rw [if_neg (not_not.2 H1)]
    by_cases h2 : 1 < o.codim ∧ 1 < o'.codim
    · rw [if_pos (show 1 < (Fn.codim (.expr o.dom o.codim o.ty l)) ∧ 1 < (Fn.codim (.expr o'.dom o'.codim o'.ty l')) from h2)]
      refine ⟨σ, ?_, fun _ => rfl⟩
      rw [e, bind_app, mulThrow, if_neg (not_not.2 h1), if_pos h2]; rfl
    · rw [if_neg (show ¬(1 < (Fn.codim (.expr o.dom o.codim o.ty l)) ∧ 1 < (Fn.codim (.expr o'.dom o'.codim o'.ty l'))) from h2)]
      have e0 : mulThrow o o' σ = (.ok (), σ) := by rw [mulThrow, if_neg (not_not.2 h1), if_neg h2]; rfl
      by_cases h3 : o'.codim ≤ o.codim
      · have h3' : Fn.codim (.expr o'.dom o'.codim o'.ty l') ≤ Fn.codim (.expr o.dom o.codim o.ty l) := h3
        obtain ⟨σ', σ'', e1, e2, hσ⟩ := both_gives (contribution_gives rx .mul ho hc)
          (fun σ' h => contribution_gives ry .mul (h.trans ho') hc') hs
        simp only [h3', if_true, ite_self]
        refine Refines.mk_ok (Obj.Is.append (clones_piece _ hc) (clones_piece _ hc') (values_piece _ hv) (values_piece _ hv')) ?_ hσ
        rw [e, bind_ok e0, if_pos h3, bind_ok e1, bind_ok e2]; rfl
      · have h3' : ¬ Fn.codim (.expr o'.dom o'.codim o'.ty l') ≤ Fn.codim (.expr o.dom o.codim o.ty l) := h3
        have hxy : x ≠ y := by
          rintro rfl
          rw [ho] at ho'
          obtain rfl := Option.some.inj ho'
          exact h3 le_rfl
        obtain ⟨σ', σ'', e1, e2, hσ⟩ := both_gives (contribution_gives ry .mul ho' hc')
          (fun σ' h => contribution_gives rx .mul (h.trans ho) hc) (Or.inl (Ne.symm hxy))
        simp only [h3', if_false]
        refine Refines.mk_ok (Obj.Is.append (clones_piece _ hc') (clones_piece _ hc) (values_piece _ hv') (values_piece _ hv)) ?_ (fun w h h' => hσ w h' h)
        rw [e, bind_ok e0, if_neg h3, bind_ok e1, bind_ok e2]; rfl
  · have H1 : ¬ Fn.sameDomain (.expr o.dom o.codim o.ty l) (.expr o'.dom o'.codim o'.ty l') := h1
    rw [if_pos H1]
    refine ⟨σ, ?_, fun _ => rfl⟩
    rw [e, bind_app, mulThrow, if_pos h1]; rfl

/-! ## loops -/

theorem passes_succ {done : ℕ → Store → Prop} {step : ℕ → M ℕ} {n i : ℕ} {σ : Store} {r : Except Stop Unit × Store} (h : passes done step n i σ = some r) :
    passes done step (n + 1) i σ = some r := by
  induction n generalizing i σ with
  | zero =>
    rw [passes] at h
    by_cases hd : done i σ
    · rw [if_pos hd] at h; rw [passes, if_pos hd, h]
    · rw [if_neg hd] at h; cases h
  | succ n ih =>
    rw [passes] at h
    rw [passes]
    by_cases hd : done i σ
    · rw [if_pos hd] at h ⊢; exact h
    · rw [if_neg hd] at h ⊢
      rcases hs : step i σ with ⟨e | i', σ'⟩
      · rw [hs] at h; exact h
      · rw [hs] at h; exact ih h

theorem passes_le {done : ℕ → Store → Prop} {step : ℕ → M ℕ} {n m i : ℕ} {σ : Store} {r : Except Stop Unit × Store} (hm : n ≤ m)
    (h : passes done step n i σ = some r) : passes done step m i σ = some r := by
  induction hm with
  | refl => exact h
  | step _ ih => exact passes_succ ih

theorem loop_eq {done : ℕ → Store → Prop} {step : ℕ → M ℕ} {n i : ℕ} {σ : Store} {r : Except Stop Unit × Store} (h : passes done step n i σ = some r) :
    loop done step i σ = r := by
  have hx : ∃ n r, passes done step n i σ = some r := ⟨n, r, h⟩
  unfold loop
  rw [dif_pos hx]
  have h' := hx.choose_spec.choose_spec
  have a := passes_le (le_max_left hx.choose n) h'
  have b := passes_le (le_max_right hx.choose n) h
  exact Option.some.inj (a.symm.trans b)

theorem clones_drop {l : List Ptr} {n : ℕ} (h : clones l = .ok l) : clones (l.drop n) = .ok (l.drop n) := by
  rw [← List.take_append_drop n l] at h
  exact (clones_append_ok.1 h).2

theorem clones_take {l : List Ptr} {n : ℕ} (h : clones l = .ok l) : clones (l.take n) = .ok (l.take n) := by
  rw [← List.take_append_drop n l] at h
  exact (clones_append_ok.1 h).1

/-- One element is taken. -/
theorem take_gives {σ : Store} {y i : ℕ} {o : Obj} {p : Ptr} (rv : Bool) (h : σ y = some o) (hp : o.arr[i]? = some p) (hc : clone p = .ok p) :
    ∃ o', take rv y i σ = (.ok p, if rv then update σ y o' else σ) ∧ o'.arr = o.arr.set i .null := by
  refine ⟨{ o with arr := o.arr.set i .null }, ?_, rfl⟩
  unfold take
  rw [bind_ok (get_some σ h)]
  simp only [hp]
  cases rv
  · simp only [Bool.false_eq_true, if_false]
    rw [lift_app, hc]
  · simp only [if_true]
    rw [bind_ok (put_app _ _ _)]
    rfl

theorem pushBack_app {σ : Store} {x : ℕ} {o : Obj} (p : Ptr) (h : σ x = some o) : pushBack x p σ = (.ok (), update σ x { o with arr := o.arr ++ [p] }) := by
  unfold pushBack
  rw [bind_ok (get_some σ h)]
  rfl

theorem pushFront_app {σ : Store} {x : ℕ} {o : Obj} (p : Ptr) (h : σ x = some o) : pushFront x p σ = (.ok (), update σ x { o with arr := p :: o.arr }) := by
  unfold pushFront
  rw [bind_ok (get_some σ h)]
  rfl

theorem append_passes {x y : ℕ} (hxy : x ≠ y) (rv : Bool) : ∀ (k i : ℕ) (σ : Store) (f g : Obj), σ x = some f → σ y = some g → g.arr.length = i + k →
    clones (g.arr.drop i) = .ok (g.arr.drop i) →
    ∃ σ', passes (fun i σ => ∀ o, σ y = some o → o.arr.length ≤ i) (fun i => do
        let p ← take rv y i
        pushBack x p
        return i + 1) k i σ = some (.ok (), σ') ∧ σ' x = some { f with arr := f.arr ++ g.arr.drop i } ∧
      ∀ w, w ≠ x → ¬(rv = true ∧ w = y) → σ' w = σ w
  | 0, i, σ, f, g, hx, hy, hl, hc => by
    refine ⟨σ, ?_, ?_, fun _ _ _ => rfl⟩
    · rw [passes, if_pos]
      intro o ho
      rw [hy] at ho
      obtain rfl := Option.some.inj ho
      omega
    · rw [List.drop_of_length_le (by omega), List.append_nil, hx]
  | k + 1, i, σ, f, g, hx, hy, hl, hc => by
    have hi : i < g.arr.length := by omega
    rw [List.drop_eq_getElem_cons hi] at hc
    obtain ⟨hp, hc'⟩ := clones_cons_ok.1 hc
    obtain ⟨o', e, ho'⟩ := take_gives rv hy (List.getElem?_eq_getElem hi) hp
    set τ := if rv then update σ y o' else σ with hτ
    have hτx : τ x = some f := by
      rw [hτ]; cases rv
      · exact hx
      · exact (update_ne σ o' hxy).trans hx
    obtain ⟨g', hg', hl', hd'⟩ : ∃ g', τ y = some g' ∧ g'.arr.length = i + 1 + k ∧ g'.arr.drop (i + 1) = g.arr.drop (i + 1) := by
      rw [hτ]; cases rv
      · exact ⟨g, hy, by omega, rfl⟩
      · exact ⟨o', update_same σ y o', by rw [ho', List.length_set]; omega, by rw [ho', List.drop_set_of_lt (by omega)]⟩
    obtain ⟨σ', e', h1, h2⟩ := append_passes hxy rv k (i + 1) (update τ x { f with arr := f.arr ++ [g.arr[i]] }) _ g' (update_same _ _ _)
      ((update_ne _ _ (Ne.symm hxy)).trans hg') hl' (by rw [hd']; exact hc')
    refine ⟨σ', ?_, ?_, ?_⟩
    · rw [passes, if_neg (fun h => by have := h g hy; omega), bind_ok e, bind_ok (pushBack_app _ hτx)]
      exact e'
    · rw [h1, hd', List.drop_eq_getElem_cons hi]
      simp
    · intro w hw hw'
      rw [h2 w hw hw', update_ne _ _ hw, hτ]
      cases rv
      · rfl
      · exact update_ne _ _ (by simpa using hw')

theorem appendAll_spec {x y : ℕ} (hxy : x ≠ y) (rv : Bool) {σ : Store} {f g : Obj} (hx : σ x = some f) (hy : σ y = some g) (hc : clones g.arr = .ok g.arr) :
    ∃ σ', appendAll rv x y σ = (.ok (), σ') ∧ σ' x = some { f with arr := f.arr ++ g.arr } ∧ ∀ w, w ≠ x → ¬(rv = true ∧ w = y) → σ' w = σ w := by
  obtain ⟨σ', e, h⟩ := append_passes hxy rv g.arr.length 0 σ f g hx hy (by omega) hc
  exact ⟨σ', loop_eq e, h⟩

/-- If an object is added to its own list, the loop runs after its end. -/
theorem append_self_passes {x : ℕ} (rv : Bool) : ∀ (k i : ℕ) (σ : Store) (o : Obj), σ x = some o → i < o.arr.length →
    clones (o.arr.drop i) = .ok (o.arr.drop i) →
    passes (fun i σ => ∀ o, σ x = some o → o.arr.length ≤ i) (fun i => do
        let p ← take rv x i
        pushBack x p
        return i + 1) k i σ = none
  | 0, i, σ, o, hx, hi, hc => by rw [passes, if_neg (fun h => by have := h o hx; omega)]
  | k + 1, i, σ, o, hx, hi, hc => by
    rw [List.drop_eq_getElem_cons hi] at hc
    obtain ⟨hp, hc'⟩ := clones_cons_ok.1 hc
    obtain ⟨o', e, ho'⟩ := take_gives rv hx (List.getElem?_eq_getElem hi) hp
    obtain ⟨g', hg', hl', hd'⟩ : ∃ g', (if rv then update σ x o' else σ) x = some g' ∧ g'.arr.length = o.arr.length ∧ g'.arr.drop (i + 1) = o.arr.drop (i + 1) := by
      cases rv
      · exact ⟨o, hx, rfl, rfl⟩
      · exact ⟨o', update_same σ x o', by rw [ho', List.length_set], by rw [ho', List.drop_set_of_lt (by omega)]⟩
    rw [passes, if_neg (fun h => by have := h o hx; omega), bind_ok e, bind_ok (pushBack_app _ hg')]
    refine append_self_passes rv k (i + 1) _ _ (update_same _ _ _) ?_ ?_
    · rw [List.length_append, hl']; simp; omega
    · dsimp only
      rw [List.drop_append_of_le_length (by omega), hd']
      exact clones_append_ok.2 ⟨hc', clones_cons_ok.2 ⟨hp, rfl⟩⟩

theorem appendAll_self {x : ℕ} (rv : Bool) {σ : Store} {o : Obj} (hx : σ x = some o) (hl : o.arr ≠ []) (hc : clones o.arr = .ok o.arr) :
    appendAll rv x x σ = (.error .endless, σ) := by
  unfold appendAll loop
  rw [dif_neg]
  rintro ⟨n, r, h⟩
  rw [append_self_passes rv n 0 σ o hx (List.length_pos_iff.2 hl) hc] at h
  simp at h

theorem prepend_passes {x y : ℕ} (hxy : x ≠ y) (rv : Bool) (len : ℕ) : ∀ (i : ℕ) (σ : Store) (f g : Obj), σ x = some f → σ y = some g → i ≤ g.arr.length →
    clones (g.arr.take i) = .ok (g.arr.take i) →
    ∃ σ', passes (fun i _ => i = 0) (fun i => do
        let p ← take rv y (if x = y then len - 1 else i - 1)
        pushFront x p
        return i - 1) i i σ = some (.ok (), σ') ∧ σ' x = some { f with arr := g.arr.take i ++ f.arr } ∧
      ∀ w, w ≠ x → ¬(rv = true ∧ w = y) → σ' w = σ w
  | 0, σ, f, g, hx, hy, hl, hc => ⟨σ, by rw [passes, if_pos rfl], by simpa using hx, fun _ _ _ => rfl⟩
  | i + 1, σ, f, g, hx, hy, hl, hc => by
    have hi : i < g.arr.length := by omega
    rw [List.take_succ_eq_append_getElem hi] at hc
    obtain ⟨hc', hp⟩ := clones_append_ok.1 hc
    obtain ⟨o', e, ho'⟩ := take_gives rv hy (List.getElem?_eq_getElem hi) (clones_cons_ok.1 hp).1
    set τ := if rv then update σ y o' else σ with hτ
    have hτx : τ x = some f := by
      rw [hτ]; cases rv
      · exact hx
      · exact (update_ne σ o' hxy).trans hx
    obtain ⟨g', hg', hl', hd'⟩ : ∃ g', τ y = some g' ∧ i ≤ g'.arr.length ∧ g'.arr.take i = g.arr.take i := by
      rw [hτ]; cases rv
      · exact ⟨g, hy, by omega, rfl⟩
      · exact ⟨o', update_same σ y o', by rw [ho', List.length_set]; omega, by rw [ho', List.take_set_of_le (by omega)]⟩
    obtain ⟨σ', e', h1, h2⟩ := prepend_passes hxy rv len i (update τ x { f with arr := g.arr[i] :: f.arr }) _ g' (update_same _ _ _)
      ((update_ne _ _ (Ne.symm hxy)).trans hg') hl' (by rw [hd']; exact hc')
    refine ⟨σ', ?_, ?_, ?_⟩
    · rw [passes, if_neg (by omega), if_neg hxy, Nat.add_sub_cancel, bind_ok e, bind_ok (pushFront_app _ hτx)]
      exact e'
    · rw [h1, hd', List.take_succ_eq_append_getElem hi, List.append_assoc]
      rfl
    · intro w hw hw'
      rw [h2 w hw hw', update_ne _ _ hw, hτ]
      cases rv
      · rfl
      · exact update_ne _ _ (by simpa using hw')

theorem prependAll_spec {x y : ℕ} (hxy : x ≠ y) (rv : Bool) {σ : Store} {f g : Obj} (hx : σ x = some f) (hy : σ y = some g) (hc : clones g.arr = .ok g.arr) :
    ∃ σ', prependAll rv x y σ = (.ok (), σ') ∧ σ' x = some { f with arr := g.arr ++ f.arr } ∧ ∀ w, w ≠ x → ¬(rv = true ∧ w = y) → σ' w = σ w := by
  obtain ⟨σ', e, h1, h⟩ := prepend_passes hxy rv g.arr.length g.arr.length σ f g hx hy le_rfl (by simpa using hc)
  refine ⟨σ', ?_, by simpa using h1, h⟩
  unfold prependAll
  rw [bind_ok (get_some σ hy)]
  exact loop_eq e

theorem moveFrom_app {σ : Store} {x : ℕ} {o : Obj} (h : σ x = some o) : moveFrom x σ = (.ok o, update σ x { o with arr := [] }) := by
  unfold moveFrom
  rw [bind_ok (get_some σ h), bind_ok (put_app _ _ _)]
  rfl

/-- An rvalue object that is extended by the argument, in place. -/
theorem front_spec {x y : ℕ} (hxy : x ≠ y) (ry : Bool) {σ : Store} {f g : Obj} (hx : σ x = some f) (hy : σ y = some g) (hc : clones g.arr = .ok g.arr) :
    ∃ σ', extendFront ry x y σ = (.ok (), σ') ∧ σ' x = some { f with arr := piece (g.ty = .comp) g ++ f.arr } ∧
      ∀ w, w ≠ x → ¬(ry = true ∧ w = y) → σ' w = σ w := by
  unfold piece extendFront
  rw [bind_ok (get_some σ hy)]
  by_cases h : g.ty = .comp
  · simp only [h, if_true]; exact prependAll_spec hxy ry hx hy hc
  · simp only [h, if_false]
    obtain ⟨τ, e, hτ⟩ := newFrom_gives ry hy hc
    have hτx : τ x = some f := (hτ x (by simp [hxy])).trans hx
    exact ⟨_, by rw [bind_ok e, pushFront_app _ hτx]; rfl, update_same _ _ _, fun w h1 h2 => (update_ne _ _ h1).trans (hτ w h2)⟩

theorem back_spec {x y : ℕ} (hxy : x ≠ y) (ry : Bool) {σ : Store} {f g : Obj} (hx : σ x = some f) (hy : σ y = some g) (hc : clones g.arr = .ok g.arr) :
    ∃ σ', extendBack ry x y σ = (.ok (), σ') ∧ σ' x = some { f with arr := f.arr ++ piece (g.ty = .concat) g } ∧
      ∀ w, w ≠ x → ¬(ry = true ∧ w = y) → σ' w = σ w := by
  unfold piece extendBack
  rw [bind_ok (get_some σ hy)]
  by_cases h : g.ty = .concat
  · simp only [h, if_true]; exact appendAll_spec hxy ry hx hy hc
  · simp only [h, if_false]
    obtain ⟨τ, e, hτ⟩ := newFrom_gives ry hy hc
    have hτx : τ x = some f := (hτ x (by simp [hxy])).trans hx
    exact ⟨_, by rw [bind_ok e, pushBack_app _ hτx], update_same _ _ _, fun w h1 h2 => (update_ne _ _ h1).trans (hτ w h2)⟩

theorem compose_refines {σ : Store} {x y : ℕ} {f g : Fn} (rx ry : Bool) (hf : Is σ x f) (hg : Is σ y g) (hs : x ≠ y ∨ rx = false) :
    Refines (compose rx ry x y) σ rx x ry y (Fn.compose ⟨rx, ry⟩ f g) := by
  obtain ⟨o, l, ho, hc, hv, rfl⟩ := hf
  obtain ⟨o', l', ho', hc', hv', rfl⟩ := hg
  have e : compose rx ry x y σ = (if 1 < o'.codim then stop (.thrown .invalidArgument)
      else if rx = true ∧ o.ty = .comp then do
        extendFront ry x y
        let o ← moveFrom x
        return { o with dom := if ry then o'.dom else o.dom }
      else do
        let l1 ← link rx .comp x
        let l2 ← link ry .comp y
        return ⟨o'.dom, o.codim, .comp, l2 ++ l1⟩ : M Obj) σ := by
    unfold compose
    rw [bind_ok (get_some σ ho), bind_ok (get_some σ ho')]
  unfold Fn.compose
  by_cases h1 : 1 < o'.codim
  · rw [if_pos (show 1 < Fn.codim (.expr o'.dom o'.codim o'.ty l') from h1)]
    refine ⟨σ, ?_, fun _ => rfl⟩
    rw [e, if_pos h1]; rfl
  rw [if_neg (show ¬ 1 < Fn.codim (.expr o'.dom o'.codim o'.ty l') from h1)]
  rw [if_neg h1] at e
  by_cases h2 : rx = true ∧ o.ty = .comp
  · rw [if_pos h2] at e
    obtain ⟨rfl, h2⟩ := h2
    have hxy : x ≠ y := by simpa using hs
    obtain ⟨τ, e1, hτx, hτ⟩ := front_spec hxy ry ho ho' hc'
    have hL : Fn.chain .comp (.expr o.dom o.codim o.ty l) = l := by unfold Fn.chain Fn.parts; rw [if_pos h2]
    have hd : (if true = true ∧ ¬ ry = true ∧ (Fn.parts (.expr o.dom o.codim o.ty l)).1 = .comp then Fn.dom (.expr o.dom o.codim o.ty l)
        else Fn.dom (.expr o'.dom o'.codim o'.ty l')) = if ry then o'.dom else o.dom := by
      cases ry <;> simp [Fn.parts, h2, Fn.dom]
    show Refines _ σ _ _ _ _ (.ok (Fn.expr (if true = true ∧ ¬ ry = true ∧ _ then _ else _) _ _ _))
    rw [hd, hL]
    refine Refines.mk_ok (σ' := update τ x { o with arr := [] }) (Obj.Is.append (clones_piece (o'.ty = .comp) hc') hc (values_piece _ hv') hv) ?_ ?_
    · rw [e, bind_ok e1, bind_ok (moveFrom_app hτx)]
      show (Except.ok _, _) = (Except.ok _, _)
      rw [h2]; rfl
    · intro w h3 h4
      have h3 : w ≠ x := by simpa using h3
      exact (update_ne _ _ h3).trans (hτ w h3 h4)
  · rw [if_neg h2] at e
    have hd : (if rx = true ∧ ¬ ry = true ∧ (Fn.parts (.expr o.dom o.codim o.ty l)).1 = .comp then Fn.dom (.expr o.dom o.codim o.ty l)
        else Fn.dom (.expr o'.dom o'.codim o'.ty l')) = o'.dom := by
      rw [if_neg]; · rfl
      exact fun h => h2 ⟨h.1, h.2.2⟩
    show Refines _ σ _ _ _ _ (.ok (Fn.expr (if rx = true ∧ ¬ ry = true ∧ _ then _ else _) _ _ _))
    rw [hd]
    obtain ⟨σ', σ'', e1, e2, hσ⟩ := both_gives (link_gives rx .comp ho hc) (fun σ' h => link_gives ry .comp (h.trans ho') hc') hs
    refine Refines.mk_ok (Obj.Is.append (clones_piece _ hc') (clones_piece _ hc) (values_piece _ hv') (values_piece _ hv)) ?_ hσ
    rw [e, bind_ok e1, bind_ok e2]; rfl

theorem concat_refines {σ : Store} {x y : ℕ} {f g : Fn} (rx ry : Bool) (hf : Is σ x f) (hg : Is σ y g) (hs : x ≠ y ∨ rx = false) :
    Refines (concat rx ry x y) σ rx x ry y (Fn.concat ⟨rx, ry⟩ f g) := by
  obtain ⟨o, l, ho, hc, hv, rfl⟩ := hf
  obtain ⟨o', l', ho', hc', hv', rfl⟩ := hg
  set F : Fn := .expr o.dom o.codim o.ty l with hF
  set G : Fn := .expr o'.dom o'.codim o'.ty l' with hG
  unfold Fn.concat
  by_cases h1 : o.codim = o'.codim
  swap
  · rw [if_pos (show F.codim ≠ G.codim from h1)]
    refine ⟨σ, ?_, fun _ => rfl⟩
    unfold concat concatThrow
    rw [bind_ok (get_some σ ho), bind_ok (get_some σ ho'), bind_app, if_pos h1]; rfl
  rw [if_neg (not_not.2 (show F.codim = G.codim from h1))]
  by_cases h2 : |o.dom.2 - o'.dom.1| > tol9
  · rw [if_pos (show |F.dom.2 - G.dom.1| > tol9 from h2)]
    refine ⟨σ, ?_, fun _ => rfl⟩
    unfold concat concatThrow
    rw [bind_ok (get_some σ ho), bind_ok (get_some σ ho'), bind_app, if_neg (not_not.2 h1), if_pos h2]; rfl
  rw [if_neg (show ¬ |F.dom.2 - G.dom.1| > tol9 from h2)]
  have e0 : concatThrow o o' σ = (.ok (), σ) := by unfold concatThrow; rw [if_neg (not_not.2 h1), if_neg h2]; rfl
  by_cases h3 : rx = true ∧ o.ty = .concat
  · rw [if_pos (show rx = true ∧ F.parts.1 = .concat from h3)]
    obtain ⟨rfl, h3⟩ := h3
    have hxy : x ≠ y := by simpa using hs
    obtain ⟨τ, e1, hτx, hτ⟩ := back_spec hxy ry ho ho' hc'
    have hL : Fn.chain .concat F = l := by rw [hF]; unfold Fn.chain Fn.parts; rw [if_pos h3]
    rw [hL]
    refine Refines.mk_ok (σ' := update τ x { o with arr := [] }) (Obj.Is.append hc (clones_piece (o'.ty = .concat) hc') hv (values_piece _ hv')) ?_ ?_
    · unfold concat
      rw [bind_ok (get_some σ ho), bind_ok (get_some σ ho'), bind_ok e0, if_pos ⟨rfl, h3⟩, bind_ok e1, moveFrom_app hτx]
      show (Except.ok _, _) = (Except.ok _, _)
      rw [h3]; rfl
    · intro w h3 h4
      have h3 : w ≠ x := by simpa using h3
      exact (update_ne _ _ h3).trans (hτ w h3 h4)
  · rw [if_neg (show ¬(rx = true ∧ F.parts.1 = .concat) from h3)]
    have key : ∃ σ'', (if rx then do
          let l2 ← link ry .concat y
          let p ← moveFrom x
          return p.ptr :: l2
        else do
          let l1 ← link false .concat x
          let l2 ← link ry .concat y
          return l1 ++ l2 : M (List Ptr)) σ = (.ok (piece (o.ty = .concat) o ++ piece (o'.ty = .concat) o'), σ'') ∧
        ∀ w, ¬(rx = true ∧ w = x) → ¬(ry = true ∧ w = y) → σ'' w = σ w := by
      cases rx
      · obtain ⟨σ', σ'', e1, e2, hσ⟩ := both_gives (link_gives false .concat ho hc) (fun σ' h => link_gives ry .concat (h.trans ho') hc') hs
        refine ⟨σ'', ?_, hσ⟩
        simp only [Bool.false_eq_true, if_false]
        rw [bind_ok e1, bind_ok e2]; rfl
      · have hxy : x ≠ y := by simpa using hs
        have ht : o.ty ≠ .concat := fun h => h3 ⟨rfl, h⟩
        obtain ⟨τ, e1, hτ⟩ := link_gives ry .concat ho' hc'
        have hτx : τ x = some o := (hτ x (by simp [hxy])).trans ho
        refine ⟨update τ x { o with arr := [] }, ?_, fun w h h' => (update_ne _ _ (by simpa using h)).trans (hτ w h')⟩
        simp only [if_true]
        rw [bind_ok e1, bind_ok (moveFrom_app hτx)]
        have : piece (o.ty = .concat) o = [o.ptr] := by unfold piece; rw [if_neg ht]
        rw [this]; rfl
    obtain ⟨σ'', e1, hσ⟩ := key
    by_cases h4 : o.dom.1 ≤ o'.dom.2
    · rw [if_pos (show F.dom.1 ≤ G.dom.2 from h4)]
      refine Refines.mk_ok (Obj.Is.append (clones_piece _ hc) (clones_piece _ hc') (values_piece _ hv) (values_piece _ hv')) ?_ hσ
      unfold concat
      rw [bind_ok (get_some σ ho), bind_ok (get_some σ ho'), bind_ok e0, if_neg h3, bind_ok e1, if_pos h4]; rfl
    · rw [if_neg (show ¬ F.dom.1 ≤ G.dom.2 from h4)]
      refine ⟨σ'', ?_, by simp⟩
      unfold concat
      rw [bind_ok (get_some σ ho), bind_ok (get_some σ ho'), bind_ok e0, if_neg h3, bind_ok e1, if_neg h4]; rfl

theorem op_refines {σ : Store} {x y : ℕ} {f g : Fn} (op : Op) (rx ry : Bool) (hf : Is σ x f) (hg : Is σ y g)
    (hs : x ≠ y ∨ (if op = .sub then ry else rx) = false) : Refines (op.run rx ry x y) σ rx x ry y (opFn op rx ry f g) := by
  cases op
  · exact add_refines rx ry hf hg (by simpa using hs)
  · exact sub_refines rx ry hf hg (by simpa using hs)
  · exact mul_refines rx ry hf hg (by simpa using hs)
  · exact compose_refines rx ry hf hg (by simpa using hs)
  · exact concat_refines rx ry hf hg (by simpa using hs)

theorem inPlace_refines {σ : Store} {x y : ℕ} {f g : Fn} (ty : Ty) (ry : Bool) (hf : Is σ x f) (hg : Is σ y g) (hxy : x ≠ y) :
    ∃ σ', inPlace ty ry x y σ = (.ok (), σ') ∧ Is σ' x (Fn.inPlace ty f g) ∧ ∀ w, w ≠ x → ¬(ry = true ∧ w = y) → σ' w = σ w := by
  obtain ⟨o, l, ho, hc, hv, rfl⟩ := hf
  obtain ⟨o', l', ho', hc', hv', rfl⟩ := hg
  set o1 : Obj := if o.ty = .unique ∨ o.ty = ty then { o with ty := ty } else { o with ty := ty, arr := [o.ptr] } with ho1
  have e1 : update σ x o1 x = some o1 := update_same _ _ _
  have e2 : update σ x o1 y = some o' := (update_ne _ _ (Ne.symm hxy)).trans ho'
  obtain ⟨τ, e3, hτ⟩ := newFrom_gives ry e2 hc'
  have hτx : τ x = some o1 := (hτ x (by simp [hxy])).trans e1
  refine ⟨update τ x { o1 with arr := o1.arr ++ [o'.ptr] }, ?_,
    ⟨_, (if o.ty = .unique ∨ o.ty = ty then l else [.expr o.dom o.codim o.ty l]) ++ [.expr o'.dom o'.codim o'.ty l'], update_same _ _ _, ?_, ?_, ?_⟩, ?_⟩
  · unfold inPlace
    rw [bind_ok (get_some σ ho), bind_ok (put_app _ _ _), bind_ok e3, pushBack_app _ hτx]
  · refine clones_append_ok.2 ⟨?_, clones_cons_ok.2 ⟨clone_ptr.2 hc', rfl⟩⟩
    rw [ho1]
    by_cases h : o.ty = .unique ∨ o.ty = ty
    · rw [if_pos h]; exact hc
    · rw [if_neg h]; exact clones_cons_ok.2 ⟨clone_ptr.2 hc, rfl⟩
  · refine values_append ?_ (values_single (value_ptr hv'))
    rw [ho1]
    by_cases h : o.ty = .unique ∨ o.ty = ty
    · rw [if_pos h, if_pos h]; exact hv
    · rw [if_neg h, if_neg h]; exact values_single (value_ptr hv)
  · rw [ho1]
    unfold Fn.inPlace
    by_cases h : o.ty = .unique ∨ o.ty = ty
    · simp only [h, if_true]; rfl
    · simp only [h, if_false]; rfl
  · intro w h1 h2
    rw [update_ne _ _ h1, hτ w h2, update_ne _ _ h1]

/-! ## statements and programs -/

theorem Rep.drop {σ σ' : Store} {E : Env} {rv : Bool} {x : ℕ} (h : Rep σ E) (e : ∀ w, ¬(rv = true ∧ w = x) → σ' w = σ w) : Rep σ' (E.drop rv x) := by
  intro w f hf
  by_cases hw : rv = true ∧ w = x
  · obtain ⟨rfl, rfl⟩ := hw
    simp [Env.drop, Env.set] at hf
  · refine (h w f ?_).congr (e w hw)
    unfold Env.drop Env.set at hf
    cases rv
    · exact hf
    · have : w ≠ x := by simpa using hw
      simpa [this] using hf

theorem Rep.drop2 {σ σ' : Store} {E : Env} {rx ry : Bool} {x y : ℕ} (h : Rep σ E)
    (e : ∀ w, ¬(rx = true ∧ w = x) → ¬(ry = true ∧ w = y) → σ' w = σ w) : Rep σ' ((E.drop rx x).drop ry y) := by
  have h1 : Rep (fun w => if ry = true ∧ w = y then σ w else σ' w) (E.drop rx x) := h.drop fun w hw => by
    by_cases h' : ry = true ∧ w = y
    · simp [h']
    · simp only [h', if_false]; exact e w hw h'
  exact h1.drop fun w hw => by simp [hw]

theorem Rep.assign {σ : Store} {E : Env} {z : ℕ} {o : Obj} {f : Fn} (h : Rep σ E) (ho : o.Is f) : Rep (update σ z o) (E.set z (some f)) := by
  intro w g hg
  by_cases hw : w = z
  · subst hw
    obtain rfl : f = g := by simpa [Env.set] using hg
    obtain ⟨l, h1, h2, h3⟩ := ho
    exact ⟨o, l, update_same _ _ _, h1, h2, h3⟩
  · exact (h w g (by simpa [Env.set, hw] using hg)).congr (update_ne _ _ hw)

/-- One statement. -/
theorem step_refines {σ : Store} {E : Env} (s : Stmt) (hs : Safe s) (h : Rep σ E) :
    (∀ E', step E s = some (.ok E') → ∃ σ', s.run σ = (.ok (), σ') ∧ Rep σ' E') ∧
    (∀ e, step E s = some (.error e) → ∃ σ', s.run σ = (.error (.thrown e), σ') ∧ (e = .invalidArgument → σ' = σ)) := by
  cases s with
  | new z f =>
    refine ⟨fun E' hE => ?_, fun e he => by simp [step] at he⟩
    obtain rfl : E.set z (some f.wrap) = E' := by simpa [step] using hE
    refine ⟨_, rfl, h.assign ⟨[f.clone], ?_, ?_, rfl⟩⟩
    · refine clones_cons_ok.2 ⟨?_, rfl⟩
      rw [clone]
      cases f <;> rfl
    · exact values_single (by rw [value])
  | init z rv x =>
    simp only [step]
    rcases hx : E x with _ | f
    · simp
    obtain ⟨o, l, ho, hc, hv, rfl⟩ := h x f hx
    refine ⟨fun E' hE => ?_, fun e he => by simp at he⟩
    obtain rfl := Except.ok.inj (Option.some.inj hE)
    obtain ⟨τ, e, hτ⟩ := newFrom_gives rv ho hc
    exact ⟨update τ z o, by show (newFrom rv x >>= fun o => put z o) σ = _; rw [bind_ok e]; rfl, (h.drop hτ).assign ⟨l, hc, hv, rfl⟩⟩
  | neg z rv x =>
    simp only [step]
    rcases hx : E x with _ | f
    · simp
    obtain ⟨o, l, ho, hc, hv, rfl⟩ := h x f hx
    refine ⟨fun E' hE => ?_, fun e he => by simp at he⟩
    obtain rfl := Except.ok.inj (Option.some.inj hE)
    obtain ⟨τ, e, hτ⟩ := neg_gives rv ho hc
    exact ⟨update τ z { o with ty := .neg }, by show (Own.neg rv x >>= fun o => put z o) σ = _; rw [bind_ok e]; rfl, (h.drop hτ).assign ⟨l, hc, hv, rfl⟩⟩
  | bin op z rx x ry y =>
    simp only [step]
    rcases hx : E x with _ | f
    · simp
    rcases hy : E y with _ | g
    · simp
    have hr := op_refines op rx ry (h x f hx) (h y g hy) hs
    rcases hres : opFn op rx ry f g with e | k
    · refine ⟨fun E' hE => by simp [hres, Except.map] at hE, fun e' he => ?_⟩
      obtain rfl : e = e' := by simpa [hres, Except.map] using he
      rw [hres] at hr
      obtain ⟨σ', e1, h1⟩ := hr
      exact ⟨σ', by show (op.run rx ry x y >>= fun o => put z o) σ = _; rw [bind_app, e1], h1⟩
    · refine ⟨fun E' hE => ?_, fun e' he => by simp [hres, Except.map] at he⟩
      obtain rfl : ((E.drop rx x).drop ry y).set z (some k) = E' := by simpa [hres, Except.map] using hE
      rw [hres] at hr
      obtain ⟨o, σ', e1, ho, h1⟩ := hr
      exact ⟨update σ' z o, by show (op.run rx ry x y >>= fun o => put z o) σ = _; rw [bind_ok e1]; rfl, (h.drop2 h1).assign ho⟩
  | inPlace ty x ry y =>
    simp only [step]
    rcases hx : E x with _ | f
    · simp
    rcases hy : E y with _ | g
    · simp
    refine ⟨fun E' hE => ?_, fun e he => by simp at he⟩
    obtain rfl := Except.ok.inj (Option.some.inj hE)
    obtain ⟨σ', e, hI, hσ⟩ := inPlace_refines ty ry (h x f hx) (h y g hy) hs
    refine ⟨σ', e, fun w k hk => ?_⟩
    by_cases hw : w = x
    · subst hw
      obtain rfl : Fn.inPlace ty f g = k := by simpa [Env.set] using hk
      exact hI
    · have hk' : (E.drop ry y) w = some k := by simpa [Env.set, hw] using hk
      have := (h.drop (σ' := fun w => if w = x then σ w else σ' w) (rv := ry) (x := y) fun v hv => by
        by_cases hvx : v = x
        · simp [hvx]
        · simp only [hvx, if_false]; exact hσ v hvx hv) w k hk'
      exact this.congr (by simp [hw])

/-- Programs. -/
theorem run_refines : ∀ (p : List Stmt) (σ : Store) (E : Env), (∀ s ∈ p, Safe s) → Rep σ E →
    (∀ bs E', Spec.Own.run p E = some (.ok (bs, E')) → ∃ σ', Own.run p σ = (.ok bs, σ') ∧ Rep σ' E') ∧
    (∀ e, Spec.Own.run p E = some (.error e) → ∃ σ', Own.run p σ = (.error (.thrown e), σ'))
  | [], σ, E, _, h => by
    refine ⟨fun bs E' he => ?_, fun e he => by simp [Spec.Own.run] at he⟩
    obtain ⟨rfl, rfl⟩ : [] = bs ∧ E = E' := by simpa [Spec.Own.run] using he
    exact ⟨σ, rfl, h⟩
  | s :: p, σ, E, hs, h => by
    have hs' := step_refines s (hs s (by simp)) h
    have hp : ∀ t ∈ p, Safe t := fun t ht => hs t (by simp [ht])
    rcases hst : step E s with _ | e | E1
    · exact ⟨fun bs E' he => by simp [Spec.Own.run, hst] at he, fun e he => by simp [Spec.Own.run, hst] at he⟩
    · obtain ⟨σ1, e1, h1⟩ := hs'.2 e hst
      by_cases hi : e = .invalidArgument
      · subst hi
        obtain rfl := h1 rfl
        have ih := run_refines p σ1 E hp h
        have hrun : Own.run (s :: p) σ1 = (do return true :: (← Own.run p) : M _) σ1 := by
          rw [Own.run]; dsimp only; rw [e1]
        simp only [Spec.Own.run, hst]
        refine ⟨fun bs E' he => ?_, fun e he => ?_⟩
        · rcases hr : Spec.Own.run p E with _ | e' | ⟨bs', E2⟩
          · simp [hr] at he
          · simp [hr, Except.map] at he
          · obtain ⟨rfl, rfl⟩ : true :: bs' = bs ∧ E2 = E' := by simpa [hr, Except.map] using he
            obtain ⟨σ', e2, h2⟩ := ih.1 bs' E2 hr
            exact ⟨σ', by rw [hrun, bind_ok e2]; rfl, h2⟩
        · rcases hr : Spec.Own.run p E with _ | e' | ⟨bs', E2⟩
          · simp [hr] at he
          · obtain rfl : e' = e := by simpa [hr, Except.map] using he
            obtain ⟨σ', e2⟩ := ih.2 e' hr
            exact ⟨σ', by rw [hrun, bind_app, e2]⟩
          · simp [hr, Except.map] at he
      · have hrun : Own.run (s :: p) σ = (.error (.thrown e), σ1) := by
          rw [Own.run]; dsimp only; rw [e1]
          cases e <;> first | rfl | exact absurd rfl hi
        have hsp : Spec.Own.run (s :: p) E = some (.error e) := by
          rw [Spec.Own.run, hst]
          cases e <;> first | rfl | exact absurd rfl hi
        refine ⟨fun bs E' he => by simp [hsp] at he, fun e' he => ?_⟩
        obtain rfl : e = e' := by simpa [hsp] using he
        exact ⟨σ1, hrun⟩
    · obtain ⟨σ1, e1, h1⟩ := hs'.1 E1 hst
      have ih := run_refines p σ1 E1 hp h1
      have hrun : Own.run (s :: p) σ = (do return false :: (← Own.run p) : M _) σ1 := by
        rw [Own.run]; dsimp only; rw [e1]
      simp only [Spec.Own.run, hst]
      refine ⟨fun bs E' he => ?_, fun e he => ?_⟩
      · rcases hr : Spec.Own.run p E1 with _ | e' | ⟨bs', E2⟩
        · simp [hr] at he
        · simp [hr, Except.map] at he
        · obtain ⟨rfl, rfl⟩ : false :: bs' = bs ∧ E2 = E' := by simpa [hr, Except.map] using he
          obtain ⟨σ', e2, h2⟩ := ih.1 bs' E2 hr
          exact ⟨σ', by rw [hrun, bind_ok e2]; rfl, h2⟩
      · rcases hr : Spec.Own.run p E1 with _ | e' | ⟨bs', E2⟩
        · simp [hr] at he
        · obtain rfl : e' = e := by simpa [hr, Except.map] using he
          obtain ⟨σ', e2⟩ := ih.2 e' hr
          exact ⟨σ', by rw [hrun, bind_app, e2]⟩
        · simp [hr, Except.map] at he

/-! ## what a statement does not change -/

/-- A computation that changes at most the objects with `P`. -/
def Keeps {α : Type} (P : ℕ → Prop) (m : M α) : Prop := ∀ σ w, ¬ P w → (m σ).2 w = σ w

section keeps

variable {α β : Type} {P : ℕ → Prop}

theorem Keeps.bind {m : M α} {f : α → M β} (h : Keeps P m) (h' : ∀ a, Keeps P (f a)) : Keeps P (m >>= f) := by
  intro σ w hw
  rw [bind_app]
  have := h σ w hw
  rcases hm : m σ with ⟨e | a, σ'⟩
  · rw [hm] at this; exact this
  · rw [hm] at this; exact (h' a σ' w hw).trans this

theorem keeps_pure (a : α) : Keeps P (pure a : M α) := fun _ _ _ => rfl

theorem keeps_stop (e : Stop) : Keeps P (stop e : M α) := fun _ _ _ => rfl

theorem keeps_lift (r : Except Stop α) : Keeps P (lift r) := fun _ _ _ => rfl

theorem keeps_get (x : ℕ) : Keeps P (get x) := by
  intro σ w _
  unfold get
  split <;> rfl

theorem keeps_put {x : ℕ} (o : Obj) (h : P x) : Keeps P (put x o) := by
  intro σ w hw
  exact update_ne _ _ fun e => hw (e ▸ h)

theorem keeps_ite {c : Prop} {_ : Decidable c} {m m' : M α} (h : c → Keeps P m) (h' : ¬ c → Keeps P m') : Keeps P (if c then m else m') := by
  by_cases hc : c
  · rw [if_pos hc]; exact h hc
  · rw [if_neg hc]; exact h' hc

theorem keeps_newFrom {x : ℕ} (rv : Bool) (h : rv = true → P x) : Keeps P (newFrom rv x) := by
  unfold newFrom
  refine keeps_ite (fun hr => ?_) fun _ => ?_
  · exact (keeps_get x).bind fun o => (keeps_put _ (h hr)).bind fun _ => keeps_pure _
  · exact (keeps_get x).bind fun o => (keeps_lift _).bind fun _ => keeps_pure _

theorem keeps_elementsOf {x : ℕ} (rv : Bool) (h : rv = true → P x) : Keeps P (elementsOf rv x) := by
  unfold elementsOf
  refine (keeps_get x).bind fun o => keeps_ite (fun hr => ?_) fun _ => ?_
  · exact (keeps_put _ (h hr)).bind fun _ => keeps_pure _
  · exact keeps_lift _

theorem keeps_contribution {x : ℕ} (rv : Bool) (ty : Ty) (h : rv = true → P x) : Keeps P (contribution rv ty x) :=
  (keeps_get x).bind fun _ => keeps_ite (fun _ => keeps_elementsOf rv h) fun _ => (keeps_newFrom rv h).bind fun _ => keeps_pure _

theorem keeps_link {x : ℕ} (rv : Bool) (ty : Ty) (h : rv = true → P x) : Keeps P (link rv ty x) :=
  (keeps_get x).bind fun _ => keeps_ite (fun _ => keeps_elementsOf rv h) fun _ => (keeps_newFrom rv h).bind fun _ => keeps_pure _

theorem keeps_neg {x : ℕ} (rv : Bool) (h : rv = true → P x) : Keeps P (neg rv x) := (keeps_newFrom rv h).bind fun _ => keeps_pure _

theorem keeps_sumThrow (f g : Obj) : Keeps P (sumThrow f g) := by
  unfold sumThrow
  exact keeps_ite (fun _ => keeps_stop _) fun _ => keeps_ite (fun _ => keeps_stop _) fun _ => keeps_pure _

theorem keeps_mulThrow (f g : Obj) : Keeps P (mulThrow f g) := by
  unfold mulThrow
  exact keeps_ite (fun _ => keeps_stop _) fun _ => keeps_ite (fun _ => keeps_stop _) fun _ => keeps_pure _

theorem keeps_concatThrow (f g : Obj) : Keeps P (concatThrow f g) := by
  unfold concatThrow
  exact keeps_ite (fun _ => keeps_stop _) fun _ => keeps_ite (fun _ => keeps_stop _) fun _ => keeps_pure _

theorem keeps_passes {done : ℕ → Store → Prop} {step : ℕ → M ℕ} (h : ∀ i, Keeps P (step i)) : ∀ (n i : ℕ) (σ : Store) (r : Except Stop Unit × Store),
    passes done step n i σ = some r → ∀ w, ¬ P w → r.2 w = σ w
  | 0, i, σ, r, hr, w, hw => by
    rw [passes] at hr
    split at hr
    · obtain rfl := Option.some.inj hr; rfl
    · cases hr
  | n + 1, i, σ, r, hr, w, hw => by
    rw [passes] at hr
    split at hr
    · obtain rfl := Option.some.inj hr; rfl
    · have := h i σ w hw
      rcases hs : step i σ with ⟨e | i', σ'⟩
      · rw [hs] at hr this; obtain rfl := Option.some.inj hr; exact this
      · rw [hs] at hr this; exact (keeps_passes h n i' σ' r hr w hw).trans this

theorem keeps_loop {done : ℕ → Store → Prop} {step : ℕ → M ℕ} (h : ∀ i, Keeps P (step i)) (i : ℕ) : Keeps P (loop done step i) := by
  intro σ w hw
  by_cases hx : ∃ n r, passes done step n i σ = some r
  · obtain ⟨n, r, hr⟩ := hx
    rw [loop_eq hr]
    exact keeps_passes h n i σ r hr w hw
  · unfold loop; rw [dif_neg hx]

theorem keeps_take {y : ℕ} (rv : Bool) (i : ℕ) (h : rv = true → P y) : Keeps P (take rv y i) := by
  unfold take
  refine (keeps_get y).bind fun o => ?_
  split
  · exact keeps_stop _
  · exact keeps_ite (fun hr => (keeps_put _ (h hr)).bind fun _ => keeps_pure _) fun _ => keeps_lift _

theorem keeps_pushBack {x : ℕ} (p : Ptr) (h : P x) : Keeps P (pushBack x p) := (keeps_get x).bind fun _ => keeps_put _ h

theorem keeps_pushFront {x : ℕ} (p : Ptr) (h : P x) : Keeps P (pushFront x p) := (keeps_get x).bind fun _ => keeps_put _ h

theorem keeps_extendBack {x y : ℕ} (ry : Bool) (hx : P x) (hy : ry = true → P y) : Keeps P (extendBack ry x y) :=
  (keeps_get y).bind fun _ => keeps_ite
    (fun _ => keeps_loop (fun i => (keeps_take ry i hy).bind fun _ => (keeps_pushBack _ hx).bind fun _ => keeps_pure _) 0)
    fun _ => (keeps_newFrom ry hy).bind fun _ => keeps_pushBack _ hx

theorem keeps_extendFront {x y : ℕ} (ry : Bool) (hx : P x) (hy : ry = true → P y) : Keeps P (extendFront ry x y) :=
  (keeps_get y).bind fun _ => keeps_ite
    (fun _ => (keeps_get y).bind fun _ =>
      keeps_loop (fun _ => (keeps_take ry _ hy).bind fun _ => (keeps_pushFront _ hx).bind fun _ => keeps_pure _) _)
    fun _ => (keeps_newFrom ry hy).bind fun _ => keeps_pushFront _ hx

theorem keeps_moveFrom {x : ℕ} (h : P x) : Keeps P (moveFrom x) := (keeps_get x).bind fun _ => (keeps_put _ h).bind fun _ => keeps_pure _

theorem keeps_op {x y : ℕ} (op : Op) (rx ry : Bool) (hx : rx = true → P x) (hy : ry = true → P y) : Keeps P (op.run rx ry x y) := by
  cases op
  · exact (keeps_get x).bind fun _ => (keeps_get y).bind fun _ => (keeps_sumThrow _ _).bind fun _ => (keeps_contribution rx _ hx).bind fun _ =>
      (keeps_contribution ry _ hy).bind fun _ => keeps_pure _
  · exact (keeps_get x).bind fun _ => (keeps_get y).bind fun _ => (keeps_sumThrow _ _).bind fun _ => (keeps_neg ry hy).bind fun _ =>
      (keeps_get x).bind fun _ => (keeps_sumThrow _ _).bind fun _ => (keeps_contribution rx _ hx).bind fun _ => keeps_pure _
  · exact (keeps_get x).bind fun _ => (keeps_get y).bind fun _ => (keeps_mulThrow _ _).bind fun _ => keeps_ite
      (fun _ => (keeps_contribution rx _ hx).bind fun _ => (keeps_contribution ry _ hy).bind fun _ => keeps_pure _)
      fun _ => (keeps_contribution ry _ hy).bind fun _ => (keeps_contribution rx _ hx).bind fun _ => keeps_pure _
  · exact (keeps_get x).bind fun _ => (keeps_get y).bind fun _ => keeps_ite (fun _ => keeps_stop _) fun _ => keeps_ite
      (fun h => (keeps_extendFront ry (hx h.1) hy).bind fun _ => (keeps_moveFrom (hx h.1)).bind fun _ => keeps_pure _)
      fun _ => (keeps_link rx _ hx).bind fun _ => (keeps_link ry _ hy).bind fun _ => keeps_pure _
  · refine (keeps_get x).bind fun _ => (keeps_get y).bind fun _ => (keeps_concatThrow _ _).bind fun _ => keeps_ite
      (fun h => (keeps_extendBack ry (hx h.1) hy).bind fun _ => keeps_moveFrom (hx h.1))
      fun _ => Keeps.bind ?_ fun _ => keeps_ite (fun _ => keeps_pure _) fun _ => keeps_stop _
    exact keeps_ite (fun h => (keeps_link ry _ hy).bind fun _ => (keeps_moveFrom (hx h)).bind fun _ => keeps_pure _)
      fun _ => (keeps_link false _ (by simp)).bind fun _ => (keeps_link ry _ hy).bind fun _ => keeps_pure _

end keeps

theorem keeps_stmt (s : Stmt) : Keeps (fun w => Touches w s) s.run := by
  cases s with
  | new z f => exact keeps_put _ rfl
  | init z rv x => exact (keeps_newFrom rv fun h => Or.inr ⟨h, rfl⟩).bind fun _ => keeps_put _ (Or.inl rfl)
  | neg z rv x => exact (keeps_neg rv fun h => Or.inr ⟨h, rfl⟩).bind fun _ => keeps_put _ (Or.inl rfl)
  | bin op z rx x ry y =>
    exact (keeps_op op rx ry (fun h => Or.inr (Or.inl ⟨h, rfl⟩)) fun h => Or.inr (Or.inr ⟨h, rfl⟩)).bind fun _ => keeps_put _ (Or.inl rfl)
  | inPlace ty x ry y =>
    exact (keeps_get x).bind fun _ => (keeps_put _ (Or.inl rfl)).bind fun _ => (keeps_newFrom ry fun h => Or.inr ⟨h, rfl⟩).bind fun _ =>
      keeps_pushBack _ (Or.inl rfl)

/-! ## exceptions -/

/-- A computation that does not throw `invalid_argument`. -/
def Quiet {α : Type} (m : M α) : Prop := ∀ σ σ', m σ ≠ (.error (.thrown .invalidArgument), σ')

/-- A computation that leaves the objects as they were if it throws `invalid_argument`. -/
def Clean {α : Type} (m : M α) : Prop := ∀ σ σ', m σ = (.error (.thrown .invalidArgument), σ') → σ' = σ

/-- A computation that never changes the objects. -/
def Reads {α : Type} (m : M α) : Prop := ∀ σ, (m σ).2 = σ

section clean

variable {α β : Type}

theorem Quiet.clean {m : M α} (h : Quiet m) : Clean m := fun σ σ' e => absurd e (h σ σ')

theorem Quiet.bind {m : M α} {f : α → M β} (h : Quiet m) (h' : ∀ a, Quiet (f a)) : Quiet (m >>= f) := by
  intro σ σ' e
  rw [bind_app] at e
  rcases hm : m σ with ⟨e' | a, σ1⟩
  · rw [hm] at e
    simp only [Prod.mk.injEq, Except.error.injEq] at e
    exact h σ σ1 (by rw [hm, e.1])
  · rw [hm] at e; exact h' a σ1 σ' e

theorem Clean.quiet_after {m : M α} {f : α → M β} (h : Clean m) (h' : ∀ a, Quiet (f a)) : Clean (m >>= f) := by
  intro σ σ' e
  rw [bind_app] at e
  rcases hm : m σ with ⟨e' | a, σ1⟩
  · rw [hm] at e
    simp only [Prod.mk.injEq, Except.error.injEq] at e
    exact e.2.symm.trans (h σ σ1 (by rw [hm, e.1]))
  · rw [hm] at e; exact absurd e (h' a σ1 σ')

theorem Reads.bind_clean {m : M α} {f : α → M β} (h : Reads m) (h' : ∀ a, Clean (f a)) : Clean (m >>= f) := by
  intro σ σ' e
  rw [bind_app] at e
  have := h σ
  rcases hm : m σ with ⟨e' | a, σ1⟩
  · rw [hm] at e this
    exact (Prod.ext_iff.1 e).2.symm.trans this
  · rw [hm] at e this
    obtain rfl : σ1 = σ := this
    exact h' a σ1 σ' e

theorem reads_get (x : ℕ) : Reads (get x) := by intro σ; unfold get; split <;> rfl

theorem quiet_get (x : ℕ) : Quiet (get x) := by intro σ σ'; unfold get; split <;> simp

theorem quiet_pure (a : α) : Quiet (pure a : M α) := fun σ σ' => by rw [pure_app]; simp

theorem quiet_put (x : ℕ) (o : Obj) : Quiet (put x o) := fun σ σ' => by rw [put_app]; simp

mutual

theorem clone_not_thrown : ∀ (p : Ptr) (e : Err), clone p ≠ .error (.thrown e)
  | .null, e => by rw [clone]; simp
  | .leaf f, e => by rw [clone]; simp
  | .expr d c ty arr, e => by
    rw [clone]
    have := clones_not_thrown arr e
    rcases h : clones arr with e' | l
    · rw [h] at this
      simpa [bind, Except.bind] using this
    · intro h'; cases h'

theorem clones_not_thrown : ∀ (l : List Ptr) (e : Err), clones l ≠ .error (.thrown e)
  | [], e => by rw [clones]; simp
  | p :: l, e => by
    rw [clones]
    have h1 := clone_not_thrown p e
    have h2 := clones_not_thrown l e
    rcases h : clone p with e' | p'
    · rw [h] at h1; simpa [bind, Except.bind] using h1
    · rcases h3 : clones l with e' | l'
      · rw [h3] at h2; simpa [bind, Except.bind] using h2
      · intro h'; cases h'

end

theorem quiet_clone (p : Ptr) : Quiet (lift (clone p)) := fun _ _ h => clone_not_thrown p _ (Prod.ext_iff.1 h).1

theorem quiet_clones (l : List Ptr) : Quiet (lift (clones l)) := fun _ _ h => clones_not_thrown l _ (Prod.ext_iff.1 h).1

theorem quiet_ite {c : Prop} {_ : Decidable c} {m m' : M α} (h : Quiet m) (h' : Quiet m') : Quiet (if c then m else m') := by split <;> assumption

theorem clean_ite {c : Prop} {_ : Decidable c} {m m' : M α} (h : Clean m) (h' : Clean m') : Clean (if c then m else m') := by split <;> assumption

theorem clean_stop (e : Stop) : Clean (stop e : M α) := fun _ _ h => (Prod.ext_iff.1 h).2.symm

theorem quiet_moveFrom (x : ℕ) : Quiet (moveFrom x) := (quiet_get x).bind fun _ => (quiet_put _ _).bind fun _ => quiet_pure _

theorem quiet_newFrom (rv : Bool) (x : ℕ) : Quiet (newFrom rv x) :=
  quiet_ite (quiet_moveFrom x) ((quiet_get x).bind fun _ => (quiet_clones _).bind fun _ => quiet_pure _)

theorem quiet_elementsOf (rv : Bool) (x : ℕ) : Quiet (elementsOf rv x) :=
  (quiet_get x).bind fun _ => quiet_ite ((quiet_put _ _).bind fun _ => quiet_pure _) (quiet_clones _)

theorem quiet_contribution (rv : Bool) (ty : Ty) (x : ℕ) : Quiet (contribution rv ty x) :=
  (quiet_get x).bind fun _ => quiet_ite (quiet_elementsOf rv x) ((quiet_newFrom rv x).bind fun _ => quiet_pure _)

theorem quiet_link (rv : Bool) (ty : Ty) (x : ℕ) : Quiet (link rv ty x) :=
  (quiet_get x).bind fun _ => quiet_ite (quiet_elementsOf rv x) ((quiet_newFrom rv x).bind fun _ => quiet_pure _)

theorem quiet_neg (rv : Bool) (x : ℕ) : Quiet (neg rv x) := (quiet_newFrom rv x).bind fun _ => quiet_pure _

theorem quiet_passes {done : ℕ → Store → Prop} {step : ℕ → M ℕ} (h : ∀ i, Quiet (step i)) : ∀ (n i : ℕ) (σ σ' : Store),
    passes done step n i σ ≠ some (.error (.thrown .invalidArgument), σ')
  | 0, i, σ, σ' => by rw [passes]; split <;> simp
  | n + 1, i, σ, σ' => by
    rw [passes]
    split
    · simp
    · rcases hs : step i σ with ⟨e | i', σ1⟩
      · intro h'
        simp only [Option.some.injEq, Prod.mk.injEq, Except.error.injEq] at h'
        exact h i σ σ1 (by rw [hs, h'.1])
      · exact quiet_passes h n i' σ1 σ'

theorem quiet_loop {done : ℕ → Store → Prop} {step : ℕ → M ℕ} (h : ∀ i, Quiet (step i)) (i : ℕ) : Quiet (loop done step i) := by
  intro σ σ' e
  by_cases hx : ∃ n r, passes done step n i σ = some r
  · obtain ⟨n, r, hr⟩ := hx
    rw [loop_eq hr] at e
    exact quiet_passes h n i σ σ' (hr.trans (congrArg some e))
  · unfold loop at e; rw [dif_neg hx] at e; simp at e

theorem quiet_take (rv : Bool) (y i : ℕ) : Quiet (take rv y i) := by
  unfold take
  refine (quiet_get y).bind fun o => ?_
  split
  · exact fun σ σ' => by rw [stop_app]; simp
  · exact quiet_ite ((quiet_put _ _).bind fun _ => quiet_pure _) (quiet_clone _)

theorem quiet_pushBack (x : ℕ) (p : Ptr) : Quiet (pushBack x p) := (quiet_get x).bind fun _ => quiet_put _ _

theorem quiet_pushFront (x : ℕ) (p : Ptr) : Quiet (pushFront x p) := (quiet_get x).bind fun _ => quiet_put _ _

theorem quiet_extendBack (ry : Bool) (x y : ℕ) : Quiet (extendBack ry x y) :=
  (quiet_get y).bind fun _ => quiet_ite (quiet_loop (fun _ => (quiet_take _ _ _).bind fun _ => (quiet_pushBack _ _).bind fun _ => quiet_pure _) _)
    ((quiet_newFrom _ _).bind fun _ => quiet_pushBack _ _)

theorem quiet_extendFront (ry : Bool) (x y : ℕ) : Quiet (extendFront ry x y) :=
  (quiet_get y).bind fun _ => quiet_ite ((quiet_get y).bind fun _ => quiet_loop (fun _ => (quiet_take _ _ _).bind fun _ =>
    (quiet_pushFront _ _).bind fun _ => quiet_pure _) _) ((quiet_newFrom _ _).bind fun _ => quiet_pushFront _ _)

theorem clean_sumThrow (f g : Obj) : Clean (sumThrow f g) := clean_ite (clean_stop _) (clean_ite (clean_stop _) (quiet_pure _).clean)

theorem clean_mulThrow (f g : Obj) : Clean (mulThrow f g) := clean_ite (clean_stop _) (clean_ite (clean_stop _) (quiet_pure _).clean)

theorem clean_concatThrow (f g : Obj) : Clean (concatThrow f g) := clean_ite (clean_stop _) (clean_ite (clean_stop _) (quiet_pure _).clean)

/-- Taking an object does not change domains and codomains. -/
theorem newFrom_data {rv : Bool} {y : ℕ} {σ σ' : Store} {t : Obj} (h : newFrom rv y σ = (.ok t, σ')) :
    (∃ g, σ y = some g ∧ t.dom = g.dom ∧ t.codim = g.codim) ∧
    ∀ w o, σ w = some o → ∃ o', σ' w = some o' ∧ o'.dom = o.dom ∧ o'.codim = o.codim := by
  rcases hy : σ y with _ | g
  · have : newFrom rv y σ = (.error .noObject, σ) := by
      unfold newFrom moveFrom copyOf
      cases rv <;> simp [bind_app, get, hy]
    rw [this] at h; simp at h
  refine ⟨⟨g, rfl, ?_⟩, ?_⟩
  all_goals
    unfold newFrom at h
    cases rv
    · simp only [Bool.false_eq_true, if_false] at h
      unfold copyOf at h
      rw [bind_ok (get_some σ hy), bind_app, lift_app] at h
      rcases hc : clones g.arr with e | l
      · rw [hc] at h; simp at h
      · rw [hc] at h
        obtain ⟨h1, h2⟩ := Prod.ext_iff.1 h
        obtain rfl := Except.ok.inj h1
        obtain rfl : σ = σ' := h2
        first | exact ⟨rfl, rfl⟩ | exact fun w o ho => ⟨o, ho, rfl, rfl⟩
    · simp only [if_true] at h
      rw [moveFrom_app hy] at h
      obtain ⟨h1, h2⟩ := Prod.ext_iff.1 h
      obtain rfl := Except.ok.inj h1
      obtain rfl : update σ y _ = σ' := h2
      first
      | exact ⟨rfl, rfl⟩
      | intro w o ho
        by_cases hw : w = y
        · subst hw
          obtain rfl := Option.some.inj (hy.symm.trans ho)
          exact ⟨_, update_same _ _ _, rfl, rfl⟩
        · exact ⟨o, (update_ne _ _ hw).trans ho, rfl, rfl⟩

theorem clean_sub (rx ry : Bool) (x y : ℕ) : Clean (sub rx ry x y) := by
  intro σ σ' e
  rcases hx : σ x with _ | f
  · have : sub rx ry x y σ = (.error .noObject, σ) := by simp [sub, bind_app, get, hx]
    rw [this] at e; exact (Prod.ext_iff.1 e).2.symm
  rcases hy : σ y with _ | g
  · have : sub rx ry x y σ = (.error .noObject, σ) := by
      unfold sub
      rw [bind_ok (get_some σ hx)]; simp [bind_app, get, hy]
    rw [this] at e; exact (Prod.ext_iff.1 e).2.symm
  unfold sub at e
  rw [bind_ok (get_some σ hx), bind_ok (get_some σ hy)] at e
  by_cases h1 : f.sameDomain g
  swap
  · rw [bind_app, sumThrow, if_pos h1] at e; exact (Prod.ext_iff.1 e).2.symm
  by_cases h2 : f.codim = g.codim
  swap
  · rw [bind_app, sumThrow, if_neg (not_not.2 h1), if_pos h2] at e; exact (Prod.ext_iff.1 e).2.symm
  rw [bind_ok (sumThrow_ok h1 h2 σ), bind_app] at e
  rcases hn : neg ry y σ with ⟨e' | t, σ1⟩
  · rw [hn] at e
    exact absurd (show neg ry y σ = (.error (.thrown .invalidArgument), σ1) by rw [hn]; exact Prod.ext (Prod.ext_iff.1 e).1 rfl) (quiet_neg ry y σ σ1)
  rw [hn] at e
  obtain ⟨t', ht', rfl⟩ : ∃ t', newFrom ry y σ = (.ok t', σ1) ∧ t = { t' with ty := .neg } := by
    unfold neg at hn
    rw [bind_app] at hn
    rcases hm : newFrom ry y σ with ⟨e' | t', σ2⟩
    · rw [hm] at hn; simp at hn
    · rw [hm] at hn
      obtain ⟨a, b⟩ := Prod.ext_iff.1 hn
      exact ⟨t', by rw [show σ2 = σ1 from b], (Except.ok.inj a).symm⟩
  obtain ⟨⟨g', hg', ht1, ht2⟩, hw⟩ := newFrom_data ht'
  obtain rfl := Option.some.inj (hy.symm.trans hg')
  obtain ⟨f', hf', hf1, hf2⟩ := hw x f hx
  dsimp only at e
  rw [bind_ok (get_some σ1 hf'), bind_ok (sumThrow_ok (by unfold Obj.sameDomain; simp only [ht1, hf1]; exact h1) (by simp only [ht2, hf2]; exact h2) σ1)] at e
  exact absurd e (((quiet_contribution rx .sum x).bind fun _ => quiet_pure _) σ1 σ')

theorem clean_op (op : Op) (rx ry : Bool) (x y : ℕ) : Clean (op.run rx ry x y) := by
  cases op
  · exact (reads_get x).bind_clean fun _ => (reads_get y).bind_clean fun _ => (clean_sumThrow _ _).quiet_after fun _ =>
      (quiet_contribution rx _ x).bind fun _ => (quiet_contribution ry _ y).bind fun _ => quiet_pure _
  · exact clean_sub rx ry x y
  · exact (reads_get x).bind_clean fun _ => (reads_get y).bind_clean fun _ => (clean_mulThrow _ _).quiet_after fun _ => quiet_ite
      ((quiet_contribution rx _ x).bind fun _ => (quiet_contribution ry _ y).bind fun _ => quiet_pure _)
      ((quiet_contribution ry _ y).bind fun _ => (quiet_contribution rx _ x).bind fun _ => quiet_pure _)
  · exact (reads_get x).bind_clean fun _ => (reads_get y).bind_clean fun _ => clean_ite (clean_stop _) (Quiet.clean (quiet_ite
      ((quiet_extendFront ry x y).bind fun _ => (quiet_moveFrom x).bind fun _ => quiet_pure _)
      ((quiet_link rx _ x).bind fun _ => (quiet_link ry _ y).bind fun _ => quiet_pure _)))
  · refine (reads_get x).bind_clean fun _ => (reads_get y).bind_clean fun _ => (clean_concatThrow _ _).quiet_after fun _ => quiet_ite
      ((quiet_extendBack ry x y).bind fun _ => quiet_moveFrom x) (Quiet.bind ?_ fun _ => quiet_ite (quiet_pure _) ?_)
    · exact quiet_ite ((quiet_link ry _ y).bind fun _ => (quiet_moveFrom x).bind fun _ => quiet_pure _)
        ((quiet_link false _ x).bind fun _ => (quiet_link ry _ y).bind fun _ => quiet_pure _)
    · exact fun σ σ' => by rw [stop_app]; simp

theorem clean_stmt (s : Stmt) : Clean s.run := by
  cases s with
  | new z f => exact (quiet_put _ _).clean
  | init z rv x => exact ((quiet_newFrom rv x).bind fun _ => quiet_put _ _).clean
  | neg z rv x => exact ((quiet_neg rv x).bind fun _ => quiet_put _ _).clean
  | bin op z rx x ry y => exact (clean_op op rx ry x y).quiet_after fun _ => quiet_put _ _
  | inPlace ty x ry y =>
    exact ((quiet_get x).bind fun _ => (quiet_put _ _).bind fun _ => (quiet_newFrom ry y).bind fun _ => quiet_pushBack _ _).clean

end clean

/-! ## `x += x` and `x *= x` -/

theorem inPlace_self {σ : Store} {x : ℕ} {f : Fn} (ty : Ty) (hf : Is σ x f) :
    ∃ σ', inPlace ty false x x σ = (.ok (), σ') ∧ Is σ' x (Fn.inPlace ty f (.expr f.dom f.codim ty (Fn.splice ty f))) := by
  obtain ⟨o, l, ho, hc, hv, rfl⟩ := hf
  set o1 : Obj := if o.ty = .unique ∨ o.ty = ty then { o with ty := ty } else { o with ty := ty, arr := [o.ptr] } with ho1
  set l1 : List Fn := if o.ty = .unique ∨ o.ty = ty then l else [.expr o.dom o.codim o.ty l] with hl1
  have e1 : update σ x o1 x = some o1 := update_same _ _ _
  have hc1 : clones o1.arr = .ok o1.arr := by
    rw [ho1]
    by_cases h : o.ty = .unique ∨ o.ty = ty
    · rw [if_pos h]; exact hc
    · rw [if_neg h]; exact clones_cons_ok.2 ⟨clone_ptr.2 hc, rfl⟩
  have hv1 : values o1.arr = some l1 := by
    rw [ho1, hl1]
    by_cases h : o.ty = .unique ∨ o.ty = ty
    · rw [if_pos h, if_pos h]; exact hv
    · rw [if_neg h, if_neg h]; exact values_single (value_ptr hv)
  have hd : o1.dom = o.dom ∧ o1.codim = o.codim ∧ o1.ty = ty := by rw [ho1]; split <;> exact ⟨rfl, rfl, rfl⟩
  obtain ⟨τ, e3, hτ⟩ := newFrom_gives false e1 hc1
  have hτx : τ x = some o1 := (hτ x (by simp)).trans e1
  refine ⟨update τ x { o1 with arr := o1.arr ++ [o1.ptr] }, ?_, ⟨_, l1 ++ [.expr o1.dom o1.codim o1.ty l1], update_same _ _ _, ?_, ?_, ?_⟩⟩
  · unfold inPlace
    rw [bind_ok (get_some σ ho), bind_ok (put_app _ _ _), bind_ok e3, pushBack_app _ hτx]
  · exact clones_append_ok.2 ⟨hc1, clones_cons_ok.2 ⟨clone_ptr.2 hc1, rfl⟩⟩
  · exact values_append hv1 (values_single (value_ptr hv1))
  · rw [Fn.inPlace_eq, Fn.splice_expr, Fn.toExpr, hd.1, hd.2.1, hd.2.2, hl1]
    by_cases h : o.ty = .unique ∨ o.ty = ty
    · rw [if_pos h, if_pos h.symm]; rfl
    · rw [if_neg h, if_neg (fun h' => h h'.symm)]; rfl

open Fn in
theorem call_retype_sum {f : Fn} (hf : f.WF) (ts : List ℝ) (z : Rows) :
    (Fn.expr f.dom f.codim .sum (splice .sum f)).call ts = .ok z ↔ f.call ts = .ok z := by
  rw [call, run_expr]
  change evalSum _ f.codim ts = _ ↔ _
  have h1 := splice_codim hf
  rw [evalSum_eq h1.1 h1.2, sumFold_splice hf (dims_zeros _ _)]
  constructor
  · rintro ⟨y, hy, rfl⟩
    rw [zeros_add (run_dims f _ _ _ hy)]; exact hy
  · intro h
    exact ⟨z, h, (zeros_add (run_dims f _ _ _ h)).symm⟩

open Fn in
theorem call_retype_mul {f : Fn} (hf : f.WF) (ts : List ℝ) : (Fn.expr f.dom f.codim .mul (splice .mul f)).call ts = f.call ts := by
  rw [call, run_expr]
  change evalMul _ f.codim ts = _
  have := evalMul_splice hf [] ts
  rw [List.append_nil] at this
  rw [this]
  rcases f.call ts with e | r <;> rfl

/-! ## running programs step by step -/

theorem run_ok {s : Stmt} {p : List Stmt} {σ σ1 σ2 : Store} {bs : List Bool} (h : s.run σ = (.ok (), σ1)) (h' : Own.run p σ1 = (.ok bs, σ2)) :
    Own.run (s :: p) σ = (.ok (false :: bs), σ2) := by
  rw [Own.run]; dsimp only; rw [h]; dsimp only; rw [bind_ok h']; rfl

theorem run_throw {s : Stmt} {p : List Stmt} {σ σ1 σ2 : Store} {bs : List Bool} (h : s.run σ = (.error (.thrown .invalidArgument), σ1))
    (h' : Own.run p σ1 = (.ok bs, σ2)) : Own.run (s :: p) σ = (.ok (true :: bs), σ2) := by
  rw [Own.run]; dsimp only; rw [h]; dsimp only; rw [bind_ok h']; rfl

theorem run_ok_stop {s : Stmt} {p : List Stmt} {σ σ1 σ2 : Store} {e : Stop} (h : s.run σ = (.ok (), σ1)) (h' : Own.run p σ1 = (.error e, σ2)) :
    Own.run (s :: p) σ = (.error e, σ2) := by
  rw [Own.run]; dsimp only; rw [h]; dsimp only; rw [bind_app, h']

theorem run_stop {s : Stmt} {p : List Stmt} {σ σ1 : Store} {e : Stop} (h : s.run σ = (.error e, σ1)) (he : e ≠ .thrown .invalidArgument) :
    Own.run (s :: p) σ = (.error e, σ1) := by
  rw [Own.run]; dsimp only; rw [h]
  rcases e with e | _ | _ | _
  · cases e <;> first | rfl | exact absurd rfl he
  all_goals rfl

theorem run_snoc : ∀ (p : List Stmt) {s : Stmt} {σ σ1 σ2 : Store} {bs : List Bool}, Own.run p σ = (.ok bs, σ1) → s.run σ1 = (.ok (), σ2) →
    Own.run (p ++ [s]) σ = (.ok (bs ++ [false]), σ2)
  | [], s, σ, σ1, σ2, bs, h, h' => by
    obtain ⟨h1, h2⟩ := Prod.ext_iff.1 h
    obtain rfl := Except.ok.inj h1
    obtain rfl : σ = σ1 := h2
    exact run_ok h' rfl
  | t :: p, s, σ, σ1, σ2, bs, h, h' => by
    rw [Own.run] at h
    dsimp only at h
    rcases ht : t.run σ with ⟨e | _, τ⟩
    · rw [ht] at h
      by_cases he : e = .thrown .invalidArgument
      · subst he
        dsimp only at h
        rw [bind_app] at h
        rcases hp : Own.run p τ with ⟨e' | bs', τ'⟩
        · rw [hp] at h; simp at h
        · rw [hp] at h
          obtain ⟨h1, h2⟩ := Prod.ext_iff.1 h
          obtain rfl := Except.ok.inj h1
          obtain rfl : τ' = σ1 := h2
          exact run_throw ht (run_snoc p hp h')
      · exfalso
        rcases e with e | _ | _ | _
        · cases e <;> first | exact he rfl | simp at h
        all_goals simp at h
    · rw [ht] at h
      dsimp only at h
      rw [bind_app] at h
      rcases hp : Own.run p τ with ⟨e' | bs', τ'⟩
      · rw [hp] at h; simp at h
      · rw [hp] at h
        obtain ⟨h1, h2⟩ := Prod.ext_iff.1 h
        obtain rfl := Except.ok.inj h1
        obtain rfl : τ' = σ1 := h2
        exact run_ok ht (run_snoc p hp h')

theorem eval_of_value {σ : Store} {x : ℕ} {o : Obj} {f : Fn} (ho : σ x = some o) (hv : value o.ptr = some f) (ts : List ℝ) : eval σ x ts = .ok (f.call ts) := by
  unfold eval; rw [ho]; dsimp only; rw [hv]

theorem eval_of_null {σ : Store} {x : ℕ} {o : Obj} (ho : σ x = some o) (hv : value o.ptr = none) (ts : List ℝ) : eval σ x ts = .error .nullDeref := by
  unfold eval; rw [ho]; dsimp only; rw [hv]

theorem eval_of_is {σ : Store} {x : ℕ} {f : Fn} (h : Is σ x f) (ts : List ℝ) : eval σ x ts = .ok (f.call ts) := by
  obtain ⟨o, l, ho, -, hv, rfl⟩ := h
  exact eval_of_value ho (value_ptr hv) ts

end GSplines.Own
