import Verif.Model.Serial
import Verif.Spec.Serial
import Verif.Props.Basis
import Verif.Props.GSpline

/-!
# C54: serialization
-/

namespace GSplines.Props

open GSplines.Serial GSplines.Spec

/-- What `dict_to_basis` asks for. -/
def basisKeys : List (String × PyType) := [("name", .str), ("dim", .int), ("parameters", .list)]

/-- What `dict_to_gspline` asks for. -/
def gsplineKeys : List (String × PyType) :=
  [("domain_left_boundary", .float), ("domain_right_boundary", .float), ("codom_dim", .int), ("number_of_intervals", .int), ("basis", .dict), ("coefficients", .list),
    ("interval_lengths", .list)]

theorem okBind {α β : Type} (x : α) (f : α → Res β) : (Except.ok x >>= f) = f x := rfl

theorem toVector_error {v : PyVal} {e : Err} (he : toVector v = .error e) : e = .typeError := by
  unfold toVector at he
  split at he
  · rename_i l
    induction l with
    | nil => cases he
    | cons a l ih =>
      rw [List.mapM_cons] at he
      cases ha : toDouble a with
      | error e' =>
        rw [ha] at he
        cases he
        unfold toDouble at ha
        split at ha <;> first | (cases ha; rfl) | cases ha
      | ok x =>
        rw [ha] at he
        cases hl : l.mapM toDouble with
        | error e' => rw [hl] at he; cases he; exact ih hl
        | ok y => rw [hl] at he; cases he
  · cases he; rfl

theorem toVector_floats (l : List ℝ) : toVector (.list (l.map .float)) = .ok l := by
  unfold toVector
  induction l with
  | nil => rfl
  | cons a l ih =>
    simp only [List.map_cons, List.mapM_cons] at ih ⊢
    rw [ih]
    rfl

theorem toSize_nat {n : ℕ} (h : n < 2 ^ 64) : toSize (.int n) = .ok n := by
  unfold toSize
  simp only
  rw [if_pos ⟨by omega, by exact_mod_cast h⟩]
  simp

/-- **C54.** `dict_to_basis(basis_to_dict(b))` is `b`, for every kind of basis, every dimension that fits in a `std::size_t` and all parameters. -/
theorem C54_basis_round_trip (b : Basis) (hd : b.dim < 2 ^ 64) (hb : ∀ x, b = .lagrange x → 2 ≤ x.length) : dictToBasis (basisToDict b) = .ok b := by
  have h1 : get (basisToDict b) "name" = .str b.name := rfl
  have h2 : get (basisToDict b) "dim" = .int b.dim := rfl
  have h3 : get (basisToDict b) "parameters" = .list (b.params.map .float) := rfl
  unfold dictToBasis
  simp only [check, h1, h2, h3, isinstance, if_true, toStr, toSize_nat hd, toVector_floats]
  exact C35_get_basis_round_trip b hb

/-- The call after the checks. -/
theorem dictToGspline_of {conv : Convert} {d d' : List (String × PyVal)} {l r : ℝ} {c n : ℕ} {b : Basis} {lc lt : List PyVal} {coeffs tau : List ℝ}
    (hl : get d "domain_left_boundary" = .float l) (hr : get d "domain_right_boundary" = .float r) (hc : get d "codom_dim" = .int c)
    (hn : get d "number_of_intervals" = .int n) (hb : get d "basis" = .dict d') (hlc : get d "coefficients" = .list lc) (hlt : get d "interval_lengths" = .list lt)
    (c1 : c < 2 ^ 64) (c2 : n < 2 ^ 64) (c3 : dictToBasis d' = .ok b) (c4 : conv lc = .ok coeffs) (c5 : conv lt = .ok tau) :
    dictToGspline conv d = GSpline.make (l, r) c n b coeffs tau := by
  unfold dictToGspline
  simp only [check, hl, hr, hc, hn, hb, hlc, hlt, isinstance, if_true, toDict, toDouble, toSize_nat c1, toSize_nat c2, toEigen, c3, c4, c5, okBind]

/-- **C54.** `dict_to_gspline(gspline_to_dict(g))` is `g`: the same domain, number of components, basis, coefficients and interval lengths, for every spline that
a constructor returned. -/
theorem C54_gspline_round_trip (conv : Convert) (hconv : ConvertContract conv) (g : GSpline) (hc : Consistent g) (ho : g.dom.1 ≤ g.dom.2) (hd : g.basis.dim < 2 ^ 64)
    (hcd : g.codim < 2 ^ 64) (hn : g.tau.length < 2 ^ 64) (hb : ∀ x, g.basis = .lagrange x → 2 ≤ x.length) : dictToGspline conv (gsplineToDict g) = .ok g := by
  have hn' : g.nIntervals < 2 ^ 64 := by unfold GSpline.nIntervals; exact hn
  have h1 : get (gsplineToDict g) "domain_left_boundary" = .float g.dom.1 := by simp [Serial.get, gsplineToDict, List.lookup]
  have h2 : get (gsplineToDict g) "domain_right_boundary" = .float g.dom.2 := by simp [Serial.get, gsplineToDict, List.lookup]
  have h3 : get (gsplineToDict g) "codom_dim" = .int g.codim := by simp [Serial.get, gsplineToDict, List.lookup]
  have h4 : get (gsplineToDict g) "number_of_intervals" = .int g.nIntervals := by simp [Serial.get, gsplineToDict, List.lookup]
  have h5 : get (gsplineToDict g) "basis" = .dict (basisToDict g.basis) := by simp [Serial.get, gsplineToDict, List.lookup]
  have h6 : get (gsplineToDict g) "coefficients" = .list (g.coeffs.map .float) := by simp [Serial.get, gsplineToDict, List.lookup]
  have h7 : get (gsplineToDict g) "interval_lengths" = .list (g.tau.map .float) := by simp [Serial.get, gsplineToDict, List.lookup]
  rw [dictToGspline_of h1 h2 h3 h4 h5 h6 h7 hcd hn' (C54_basis_round_trip g.basis hd hb) (hconv.floats _) (hconv.floats _)]
  unfold GSpline.make
  rw [if_pos ho, if_neg (show ¬ (g.coeffs.length ≠ g.nIntervals * g.basis.dim * g.codim) from not_not.mpr hc)]

theorem check_ok {d : List (String × PyVal)} {ks : List (String × PyType)} : check d ks = .ok () ↔ ∀ k ∈ ks, isinstance (get d k.1) k.2 = true := by
  induction ks with
  | nil => simp [check]
  | cons k ks ih =>
    obtain ⟨key, t⟩ := k
    unfold check
    by_cases h : isinstance (get d key) t = true
    · rw [if_pos h, ih]; simp [h]
    · rw [if_neg h]; simp [h]

theorem check_error {d : List (String × PyVal)} {ks : List (String × PyType)} (h : ∃ k ∈ ks, isinstance (get d k.1) k.2 = false) : check d ks = .error .typeError := by
  cases hc : check d ks with
  | ok u =>
    obtain ⟨k, hk, e⟩ := h
    rw [check_ok.mp hc k hk] at e
    cases e
  | error e =>
    induction ks with
    | nil => cases hc
    | cons k ks ih =>
      obtain ⟨key, t⟩ := k
      unfold check at hc
      split_ifs at hc with h'
      · refine ih ?_ hc
        obtain ⟨k, hk, e'⟩ := h
        rcases List.mem_cons.mp hk with rfl | hk
        · rw [h'] at e'; cases e'
        · exact ⟨k, hk, e'⟩
      · cases hc; rfl

/-- **C54.** If a key is missing or its value has another type, `dict_to_basis` and `dict_to_gspline` raise `TypeError`; also if this is so for the dictionary of
the basis inside the dictionary of a spline. -/
theorem C54_wrong_type (conv : Convert) (d : List (String × PyVal)) :
    ((∃ k ∈ basisKeys, isinstance (get d k.1) k.2 = false) → dictToBasis d = .error .typeError) ∧
    ((∃ k ∈ gsplineKeys, isinstance (get d k.1) k.2 = false) → dictToGspline conv d = .error .typeError) ∧
    (∀ d', get d "basis" = .dict d' → (∃ k ∈ basisKeys, isinstance (get d' k.1) k.2 = false) → dictToGspline conv d = .error .typeError) := by
  have hb : ∀ d, (∃ k ∈ basisKeys, isinstance (get d k.1) k.2 = false) → dictToBasis d = .error .typeError := by
    intro d h
    unfold dictToBasis
    rw [show check d [("name", .str), ("dim", .int), ("parameters", .list)] = .error .typeError from check_error h]
    rfl
  refine ⟨hb d, fun h => ?_, fun d' hd' h => ?_⟩
  · unfold dictToGspline
    change (check d gsplineKeys >>= _) = _
    rw [show check d _ = .error .typeError from check_error h]
    rfl
  · unfold dictToGspline
    change (check d gsplineKeys >>= _) = _
    by_cases hk : ∃ k ∈ gsplineKeys, isinstance (get d k.1) k.2 = false
    · rw [show check d _ = .error .typeError from check_error hk]
      rfl
    · rw [show check d _ = .ok () from check_ok.mpr fun k hk' => by
        cases e : isinstance (get d k.1) k.2 with
        | true => rfl
        | false => exact absurd ⟨k, hk', e⟩ hk]
      rw [okBind, hd', toDict, okBind, hb d' h]
      rfl

/-- **C54.** All outcomes of `dict_to_basis`: whatever the dictionary, it is a basis, `TypeError`, `ValueError` (the C++ exception `std::invalid_argument`),
or, for a Lagrange basis with fewer than two nodes and in no other case, undefined behaviour; and
if it is a basis, this basis has the name of the dictionary, and its dimension and parameters as far as the kind of basis has them. -/
theorem C54_basis_outcomes (d : List (String × PyVal)) :
    dictToBasis d = .error .typeError ∨ dictToBasis d = .error .invalidArgument ∨
      (dictToBasis d = .error .ub ∧ get d "name" = .str "lagrange" ∧ ∃ x, toVector (get d "parameters") = .ok x ∧ x.length < 2) ∨
      ∃ b, dictToBasis d = .ok b ∧ get d "name" = .str b.name ∧
        (∀ n, b = .legendre n → toSize (get d "dim") = .ok n) ∧
        (∀ x, b = .lagrange x → toVector (get d "parameters") = .ok x) ∧
        ∀ a, b = .b0101 a → toVector (get d "parameters") = .ok [a] := by
  by_cases h : ∃ k ∈ basisKeys, isinstance (get d k.1) k.2 = false
  · exact .inl ((C54_wrong_type (fun _ => .error .typeError) d).1 h)
  · have hall : ∀ k ∈ basisKeys, isinstance (get d k.1) k.2 = true := fun k hk => by
      cases e : isinstance (get d k.1) k.2 with
      | true => rfl
      | false => exact absurd ⟨k, hk, e⟩ h
    have hname : ∃ s, get d "name" = .str s := by
      have := hall ("name", .str) (by simp [basisKeys])
      cases e : get d "name" <;> rw [e] at this <;> first | exact ⟨_, rfl⟩ | cases this
    obtain ⟨s, hs⟩ := hname
    unfold dictToBasis
    rw [show check d [("name", .str), ("dim", .int), ("parameters", .list)] = .ok () from check_ok.mpr hall, hs]
    change (toSize (get d "dim") >>= fun dim => toVector (get d "parameters") >>= fun params => Basis.getBasis s dim params) = _ ∨
      (toSize (get d "dim") >>= fun dim => toVector (get d "parameters") >>= fun params => Basis.getBasis s dim params) = _ ∨
      ((toSize (get d "dim") >>= fun dim => toVector (get d "parameters") >>= fun params => Basis.getBasis s dim params) = _ ∧ _) ∨
      ∃ b, (toSize (get d "dim") >>= fun dim => toVector (get d "parameters") >>= fun params => Basis.getBasis s dim params) = _ ∧ _
    have e1 : ∀ v e, toSize v = .error e → e = .typeError := by
      intro v e he
      unfold toSize at he
      split at he
      · split_ifs at he; cases he; rfl
      · cases he
      · cases he; rfl
    cases h1 : toSize (get d "dim") with
    | error e => left; rw [e1 _ _ h1]; rfl
    | ok n =>
      cases h2 : toVector (get d "parameters") with
      | error e => left; rw [toVector_error h2]; rfl
      | ok x =>
        change Basis.getBasis s n x = _ ∨ Basis.getBasis s n x = _ ∨ (Basis.getBasis s n x = _ ∧ _) ∨ ∃ b, Basis.getBasis s n x = _ ∧ _
        obtain ⟨t1, t2, t2', t3, t4, t5⟩ := C35_get_basis s n x
        by_cases c1 : s = "legendre"
        · subst c1
          refine .inr (.inr (.inr ⟨_, t1, rfl, ?_, ?_, ?_⟩))
          · rintro m ⟨⟩; rfl
          · rintro m ⟨⟩
          · rintro m ⟨⟩
        · by_cases c2 : s = "lagrange"
          · subst c2
            by_cases hx : x.length < 2
            · exact .inr (.inr (.inl ⟨t2' hx, rfl, x, rfl, hx⟩))
            · refine .inr (.inr (.inr ⟨_, t2 (not_lt.mp hx), rfl, ?_, ?_, ?_⟩))
              · rintro m ⟨⟩
              · rintro m ⟨⟩; rfl
              · rintro m ⟨⟩
          · by_cases c3 : s = "basis0101"
            · subst c3
              by_cases c4 : x.length = 1
              · obtain ⟨a, rfl⟩ := List.length_eq_one_iff.mp c4
                refine .inr (.inr (.inr ⟨_, t3 a rfl, rfl, ?_, ?_, ?_⟩))
                · rintro m ⟨⟩
                · rintro m ⟨⟩
                · rintro m ⟨⟩; rfl
              · exact .inr (.inl (t4 c4))
            · exact .inr (.inl (t5 c1 c2 c3))

/-- **C54.** A dictionary is accepted by `dict_to_gspline` only with the data of the result: the domain, the number of components, the basis, the coefficients and
the interval lengths of the spline are those in the dictionary, and everything else is an error: `TypeError`, `ValueError`, or (for a reversed domain) a failing
assertion; or undefined behaviour, if the basis is a Lagrange basis with fewer than two nodes. -/
theorem C54_gspline_outcomes (conv : Convert) (hconv : ConvertContract conv) (d : List (String × PyVal)) :
    (∀ e, dictToGspline conv d = .error e → e = .typeError ∨ e = .invalidArgument ∨
      (e = .assertFail ∧ ∃ l r, get d "domain_left_boundary" = .float l ∧ get d "domain_right_boundary" = .float r ∧ r < l) ∨
      (e = .ub ∧ ∃ d', get d "basis" = .dict d' ∧ get d' "name" = .str "lagrange" ∧ ∃ x, toVector (get d' "parameters") = .ok x ∧ x.length < 2)) ∧
    ∀ g, dictToGspline conv d = .ok g → get d "domain_left_boundary" = .float g.dom.1 ∧ get d "domain_right_boundary" = .float g.dom.2 ∧
      toSize (get d "codom_dim") = .ok g.codim ∧ (∃ d', get d "basis" = .dict d' ∧ dictToBasis d' = .ok g.basis) ∧
      (∃ l, get d "coefficients" = .list l ∧ conv l = .ok g.coeffs) ∧ ∃ l, get d "interval_lengths" = .list l ∧ conv l = .ok g.tau := by
  by_cases h : ∃ k ∈ gsplineKeys, isinstance (get d k.1) k.2 = false
  · rw [(C54_wrong_type conv d).2.1 h]
    exact ⟨by rintro e ⟨⟩; exact .inl rfl, by rintro g ⟨⟩⟩
  have hall : ∀ k ∈ gsplineKeys, isinstance (get d k.1) k.2 = true := fun k hk => by
    cases e : isinstance (get d k.1) k.2 with
    | true => rfl
    | false => exact absurd ⟨k, hk, e⟩ h
  obtain ⟨l, hl⟩ : ∃ x, get d "domain_left_boundary" = .float x := by
    have := hall ("domain_left_boundary", .float) (by simp [gsplineKeys])
    cases e : get d "domain_left_boundary" <;> rw [e] at this <;> first | exact ⟨_, rfl⟩ | cases this
  obtain ⟨r, hr⟩ : ∃ x, get d "domain_right_boundary" = .float x := by
    have := hall ("domain_right_boundary", .float) (by simp [gsplineKeys])
    cases e : get d "domain_right_boundary" <;> rw [e] at this <;> first | exact ⟨_, rfl⟩ | cases this
  obtain ⟨d', hd'⟩ : ∃ x, get d "basis" = .dict x := by
    have := hall ("basis", .dict) (by simp [gsplineKeys])
    cases e : get d "basis" <;> rw [e] at this <;> first | exact ⟨_, rfl⟩ | cases this
  obtain ⟨lc, hlc⟩ : ∃ x, get d "coefficients" = .list x := by
    have := hall ("coefficients", .list) (by simp [gsplineKeys])
    cases e : get d "coefficients" <;> rw [e] at this <;> first | exact ⟨_, rfl⟩ | cases this
  obtain ⟨lt, hlt⟩ : ∃ x, get d "interval_lengths" = .list x := by
    have := hall ("interval_lengths", .list) (by simp [gsplineKeys])
    cases e : get d "interval_lengths" <;> rw [e] at this <;> first | exact ⟨_, rfl⟩ | cases this
  have hs : ∀ v e, toSize v = .error e → e = .typeError := by
    intro v e he
    unfold toSize at he
    split at he
    · split_ifs at he; cases he; rfl
    · cases he
    · cases he; rfl
  unfold dictToGspline
  rw [show check d [("domain_left_boundary", .float), ("domain_right_boundary", .float), ("codom_dim", .int), ("number_of_intervals", .int), ("basis", .dict),
    ("coefficients", .list), ("interval_lengths", .list)] = .ok () from check_ok.mpr hall, hl, hr, hd', hlc, hlt]
  simp only [okBind, toDict, toDouble, toEigen]
  have hb := C54_basis_outcomes d'
  cases h1 : dictToBasis d' with
  | error e =>
    refine ⟨?_, by rintro g ⟨⟩⟩
    rintro e' ⟨⟩
    rw [h1] at hb
    rcases hb with hb | hb | ⟨hb, hb'⟩ | ⟨b, hb, -⟩
    · cases hb; exact .inl rfl
    · cases hb; exact .inr (.inl rfl)
    · cases hb; exact .inr (.inr (.inr ⟨rfl, d', rfl, hb'⟩))
    · cases hb
  | ok b =>
  cases h2 : toSize (get d "codom_dim") with
  | error e => exact ⟨by rintro e' ⟨⟩; exact .inl (hs _ _ h2), by rintro g ⟨⟩⟩
  | ok c =>
  cases h3 : toSize (get d "number_of_intervals") with
  | error e => exact ⟨by rintro e' ⟨⟩; exact .inl (hs _ _ h3), by rintro g ⟨⟩⟩
  | ok n =>
  cases h4 : conv lc with
  | error e => exact ⟨by rintro e' ⟨⟩; exact .inl (hconv.fails _ _ h4), by rintro g ⟨⟩⟩
  | ok coeffs =>
  cases h5 : conv lt with
  | error e => exact ⟨by rintro e' ⟨⟩; exact .inl (hconv.fails _ _ h5), by rintro g ⟨⟩⟩
  | ok tau =>
  simp only [okBind]
  unfold GSpline.make
  split_ifs with c1 c2
  · exact ⟨by rintro e' ⟨⟩; exact .inr (.inl rfl), by rintro g ⟨⟩⟩
  · refine ⟨by rintro e' ⟨⟩, ?_⟩
    rintro g ⟨⟩
    exact ⟨rfl, rfl, rfl, ⟨d', rfl, h1⟩, ⟨lc, rfl, h4⟩, ⟨lt, rfl, h5⟩⟩
  · refine ⟨?_, by rintro g ⟨⟩⟩
    rintro e' ⟨⟩
    exact .inr (.inr (.inl ⟨rfl, l, r, rfl, rfl, lt_of_not_ge c1⟩))

/-- The dictionary of a spline with other interval lengths. -/
noncomputable def tampered (g : GSpline) (tau : List ℝ) : List (String × PyVal) :=
  [("domain_left_boundary", .float g.dom.1), ("domain_right_boundary", .float g.dom.2), ("codom_dim", .int g.codim), ("number_of_intervals", .int g.nIntervals),
    ("basis", .dict (basisToDict g.basis)), ("coefficients", .list (g.coeffs.map .float)), ("interval_lengths", .list (tau.map .float))]

/-- **C54** (where it fails): "malformed dictionaries raise `TypeError`" is false. An unknown name of a basis raises `ValueError`; and the dictionary of any spline,
with any other number of interval lengths put in, is accepted: the result is a spline whose number of coefficients does not fit its intervals. -/
theorem C54_malformed_false :
    (dictToBasis [("name", .str "fourier"), ("dim", .int 4), ("parameters", .list [])] = .error .invalidArgument) ∧
    ∀ (conv : Convert), ConvertContract conv → ∀ g : GSpline, Consistent g → g.dom.1 ≤ g.dom.2 → g.basis.dim < 2 ^ 64 → g.codim < 2 ^ 64 → g.tau.length < 2 ^ 64 →
      g.codim ≠ 0 → g.basis.dim ≠ 0 → (∀ x, g.basis = .lagrange x → 2 ≤ x.length) → ∀ tau : List ℝ, tau.length ≠ g.tau.length →
      ∃ r, dictToGspline conv (tampered g tau) = .ok r ∧ ¬ Consistent r := by
  constructor
  · rfl
  · intro conv hconv g hc ho hd hcd hn h0 h0' hb tau ht
    refine ⟨{ g with tau := tau }, ?_, ?_⟩
    · have hn' : g.nIntervals < 2 ^ 64 := by unfold GSpline.nIntervals; exact hn
      have h1 : get (tampered g tau) "domain_left_boundary" = .float g.dom.1 := by simp [Serial.get, tampered, List.lookup]
      have h2 : get (tampered g tau) "domain_right_boundary" = .float g.dom.2 := by simp [Serial.get, tampered, List.lookup]
      have h3 : get (tampered g tau) "codom_dim" = .int g.codim := by simp [Serial.get, tampered, List.lookup]
      have h4 : get (tampered g tau) "number_of_intervals" = .int g.nIntervals := by simp [Serial.get, tampered, List.lookup]
      have h5 : get (tampered g tau) "basis" = .dict (basisToDict g.basis) := by simp [Serial.get, tampered, List.lookup]
      have h6 : get (tampered g tau) "coefficients" = .list (g.coeffs.map .float) := by simp [Serial.get, tampered, List.lookup]
      have h7 : get (tampered g tau) "interval_lengths" = .list (tau.map .float) := by simp [Serial.get, tampered, List.lookup]
      rw [dictToGspline_of h1 h2 h3 h4 h5 h6 h7 hcd hn' (C54_basis_round_trip g.basis hd hb) (hconv.floats _) (hconv.floats _)]
      unfold GSpline.make
      rw [if_pos ho, if_neg (show ¬ (g.coeffs.length ≠ g.nIntervals * g.basis.dim * g.codim) from not_not.mpr hc)]
    · intro h
      unfold Consistent at h hc
      simp only at h
      rw [hc] at h
      have := Nat.eq_of_mul_eq_mul_right (Nat.pos_of_ne_zero h0) h
      exact ht (Nat.eq_of_mul_eq_mul_right (Nat.pos_of_ne_zero h0') this).symm

/-- A conversion that meets the contract: element by element. -/
theorem mapM_contract : ConvertContract fun l => toVector (.list l) where
  floats := toVector_floats
  fails _ _ h := toVector_error h

/-- C54: a spline on `[1, 6]` with two intervals, a Lagrange basis with three nodes and two components makes the round trip. -/
example : dictToGspline (fun l => toVector (.list l)) (gsplineToDict ⟨(1, 6), 2, .lagrange [-1, 0, 1], [1, 2, 3, 4, 5, 6, 7, 8, 9, 10, 11, 12], [2, 3]⟩) =
    .ok ⟨(1, 6), 2, .lagrange [-1, 0, 1], [1, 2, 3, 4, 5, 6, 7, 8, 9, 10, 11, 12], [2, 3]⟩ :=
  C54_gspline_round_trip _ mapM_contract _ rfl (by norm_num) (by simp [Basis.dim]) (by norm_num) (by norm_num) (by rintro x ⟨⟩; norm_num)

/-- C54: a dictionary without the key `dim` raises `TypeError`. -/
example : dictToBasis [("name", .str "legendre"), ("parameters", .list [])] = .error .typeError :=
  (C54_wrong_type (fun _ => .error .typeError) _).1 ⟨("dim", .int), by simp [basisKeys], rfl⟩

/-! ## Which dictionaries are accepted -/

theorem get_of_lookup {d : List (String × PyVal)} {k : String} {v : PyVal} (h : d.lookup k = some v) : get d k = v := by
  unfold Serial.get; rw [h]; rfl

theorem lookup_of_get {d : List (String × PyVal)} {k : String} {v : PyVal} (h : get d k = v) (hv : v ≠ .none) : d.lookup k = some v := by
  unfold Serial.get at h
  cases e : d.lookup k with
  | none => rw [e] at h; exact absurd h.symm hv
  | some w => rw [e] at h; exact congrArg some h

theorem toSize_iff {v : PyVal} {n : ℕ} : toSize v = .ok n ↔ IsCount v n := by
  constructor
  · intro h
    cases v with
    | int m =>
      unfold toSize at h
      simp only at h
      split_ifs at h with hm
      cases h
      have : m = (m.toNat : ℤ) := by omega
      rw [this]
      exact .int _ (by omega)
    | bool b => cases b <;> cases h <;> constructor
    | _ => cases h
  · intro h
    cases h with
    | int n h => exact toSize_nat h
    | false => rfl
    | true => rfl

theorem isinstance_str (s : String) : isinstance (.str s) .str = true := rfl
theorem isinstance_float (x : ℝ) : isinstance (.float x) .float = true := rfl
theorem isinstance_list (l : List PyVal) : isinstance (.list l) .list = true := rfl
theorem isinstance_dict (d : List (String × PyVal)) : isinstance (.dict d) .dict = true := rfl

theorem isCount_int {v : PyVal} {n : ℕ} (h : IsCount v n) : isinstance v .int = true := by cases h <;> rfl

theorem toDouble_iff {v : PyVal} {x : ℝ} : toDouble v = .ok x ↔ IsNumber v x := by
  constructor
  · intro h
    cases v with
    | float y => cases h; exact .float _
    | int m => cases h; exact .int _
    | bool b => cases b <;> cases h <;> constructor
    | _ => cases h
  · rintro (_ | _ | _ | _) <;> rfl

theorem toVector_iff {l : List PyVal} {x : List ℝ} : toVector (.list l) = .ok x ↔ List.Forall₂ IsNumber l x := by
  unfold toVector
  induction l generalizing x with
  | nil => simp only [List.mapM_nil, List.forall₂_nil_left_iff]; exact ⟨fun h => by cases h; rfl, fun h => by rw [h]; rfl⟩
  | cons a l ih =>
    simp only [List.mapM_cons] at ih ⊢
    constructor
    · intro h
      cases h1 : toDouble a with
      | error e => rw [h1] at h; cases h
      | ok y =>
        rw [h1] at h
        cases h2 : l.mapM toDouble with
        | error e => rw [h2] at h; cases h
        | ok z => rw [h2] at h; cases h; exact .cons (toDouble_iff.mp h1) (ih.mp h2)
    · rintro (_ | ⟨h1, h2⟩)
      rw [toDouble_iff.mpr h1, okBind, ih.mpr h2]
      rfl

/-- **C54.** `dict_to_basis` accepts exactly the dictionaries that describe a basis, and returns that basis. -/
theorem C54_basis_accepts_iff (d : List (String × PyVal)) (b : Basis) : dictToBasis d = .ok b ↔ DescribesBasis d b := by
  constructor
  · intro h
    have hall : ∀ k ∈ basisKeys, isinstance (get d k.1) k.2 = true := fun k hk => by
      cases e : isinstance (get d k.1) k.2 with
      | true => rfl
      | false => rw [(C54_wrong_type (fun _ => .error .typeError) d).1 ⟨k, hk, e⟩] at h; cases h
    obtain ⟨name, hname⟩ : ∃ s, get d "name" = .str s := by
      have := hall ("name", .str) (by simp [basisKeys])
      cases e : get d "name" <;> rw [e] at this <;> first | exact ⟨_, rfl⟩ | cases this
    obtain ⟨l, hl⟩ : ∃ l, get d "parameters" = .list l := by
      have := hall ("parameters", .list) (by simp [basisKeys])
      cases e : get d "parameters" <;> rw [e] at this <;> first | exact ⟨_, rfl⟩ | cases this
    unfold dictToBasis at h
    rw [show check d [("name", .str), ("dim", .int), ("parameters", .list)] = .ok () from check_ok.mpr hall, hname, hl] at h
    simp only [okBind, toStr] at h
    cases h1 : toSize (get d "dim") with
    | error e => rw [h1] at h; cases h
    | ok n =>
      rw [h1, okBind] at h
      cases h2 : toVector (.list l) with
      | error e => rw [h2] at h; cases h
      | ok x =>
        rw [h2, okBind] at h
        have hn := toSize_iff.mp h1
        refine ⟨name, get d "dim", n, l, x, lookup_of_get hname (by simp), lookup_of_get rfl (by rintro e; rw [e] at hn; cases hn), hn, lookup_of_get hl (by simp), toVector_iff.mp h2, ?_⟩
        obtain ⟨t1, t2, t2', t3, t4, t5⟩ := C35_get_basis name n x
        by_cases c1 : name = "legendre"
        · rw [c1, t1] at h; cases h; exact .inl ⟨c1, rfl⟩
        by_cases c2 : name = "lagrange"
        · by_cases hx : x.length < 2
          · rw [c2, t2' hx] at h; cases h
          · rw [c2, t2 (not_lt.mp hx)] at h; cases h; exact .inr (.inl ⟨c2, not_lt.mp hx, rfl⟩)
        by_cases c3 : name = "basis0101"
        · by_cases hx : x.length = 1
          · obtain ⟨a, ha⟩ := List.length_eq_one_iff.mp hx
            rw [c3, t3 a ha] at h; cases h
            exact .inr (.inr ⟨c3, a, ha, rfl⟩)
          · rw [c3, t4 hx] at h; cases h
        · rw [t5 c1 c2 c3] at h; cases h
  · rintro ⟨name, vn, n, l, x, h1, h2, h3, h4, h5, h6⟩
    unfold dictToBasis
    simp only [check, get_of_lookup h1, get_of_lookup h2, get_of_lookup h4, isinstance_str, isinstance_float, isinstance_list, isinstance_dict, isCount_int h3, if_true, toStr, toSize_iff.mpr h3, toVector_iff.mpr h5, okBind]
    obtain ⟨t1, t2, -, t3, -, -⟩ := C35_get_basis name n x
    rcases h6 with ⟨rfl, rfl⟩ | ⟨rfl, hx, rfl⟩ | ⟨rfl, a, ha, rfl⟩
    · exact t1
    · exact t2 hx
    · exact t3 a ha

/-- **C54.** `dict_to_gspline` accepts exactly the dictionaries that describe a spline, and returns that spline. (The spline has the right number of coefficients for the number of
intervals in the dictionary; the number of lengths is not compared with it, see `C54_malformed_false`.) -/
theorem C54_gspline_accepts_iff (conv : Convert) (d : List (String × PyVal)) (g : GSpline) : dictToGspline conv d = .ok g ↔ DescribesSpline conv d g := by
  constructor
  · intro h
    have hall : ∀ k ∈ gsplineKeys, isinstance (get d k.1) k.2 = true := fun k hk => by
      cases e : isinstance (get d k.1) k.2 with
      | true => rfl
      | false => rw [(C54_wrong_type conv d).2.1 ⟨k, hk, e⟩] at h; cases h
    obtain ⟨l, hl⟩ : ∃ x, get d "domain_left_boundary" = .float x := by
      have := hall ("domain_left_boundary", .float) (by simp [gsplineKeys])
      cases e : get d "domain_left_boundary" <;> rw [e] at this <;> first | exact ⟨_, rfl⟩ | cases this
    obtain ⟨r, hr⟩ : ∃ x, get d "domain_right_boundary" = .float x := by
      have := hall ("domain_right_boundary", .float) (by simp [gsplineKeys])
      cases e : get d "domain_right_boundary" <;> rw [e] at this <;> first | exact ⟨_, rfl⟩ | cases this
    obtain ⟨db, hd'⟩ : ∃ x, get d "basis" = .dict x := by
      have := hall ("basis", .dict) (by simp [gsplineKeys])
      cases e : get d "basis" <;> rw [e] at this <;> first | exact ⟨_, rfl⟩ | cases this
    obtain ⟨lc, hlc⟩ : ∃ x, get d "coefficients" = .list x := by
      have := hall ("coefficients", .list) (by simp [gsplineKeys])
      cases e : get d "coefficients" <;> rw [e] at this <;> first | exact ⟨_, rfl⟩ | cases this
    obtain ⟨lt, hlt⟩ : ∃ x, get d "interval_lengths" = .list x := by
      have := hall ("interval_lengths", .list) (by simp [gsplineKeys])
      cases e : get d "interval_lengths" <;> rw [e] at this <;> first | exact ⟨_, rfl⟩ | cases this
    unfold dictToGspline at h
    change (check d gsplineKeys >>= _) = _ at h
    rw [check_ok.mpr hall, hd', hl, hr, hlc, hlt] at h
    simp only [okBind, toDict, toDouble, toEigen] at h
    cases h0 : dictToBasis db with
    | error e => rw [h0] at h; cases h
    | ok b =>
    rw [h0, okBind] at h
    cases h1 : toSize (get d "codom_dim") with
    | error e => rw [h1] at h; cases h
    | ok c =>
    rw [h1, okBind] at h
    cases h2 : toSize (get d "number_of_intervals") with
    | error e => rw [h2] at h; cases h
    | ok n =>
    rw [h2, okBind] at h
    cases h3 : conv lc with
    | error e => rw [h3] at h; cases h
    | ok coeffs =>
    rw [h3, okBind] at h
    cases h4 : conv lt with
    | error e => rw [h4] at h; cases h
    | ok tau =>
    rw [h4, okBind] at h
    unfold GSpline.make at h
    split_ifs at h with ho hlen
    cases h
    have i1 := toSize_iff.mp h1
    have i2 := toSize_iff.mp h2
    exact ⟨get d "codom_dim", get d "number_of_intervals", n, db, lc, lt, lookup_of_get hl (by simp), lookup_of_get hr (by simp), ho,
      lookup_of_get rfl (by rintro e; rw [e] at i1; cases i1), i1, lookup_of_get rfl (by rintro e; rw [e] at i2; cases i2), i2, lookup_of_get hd' (by simp),
      (C54_basis_accepts_iff db b).mp h0, lookup_of_get hlc (by simp), h3, lookup_of_get hlt (by simp), h4, not_not.mp hlen⟩
  · rintro ⟨vc, vn, n, db, lc, lt, h1, h2, ho, h3, h4, h5, h6, h7, h8, h9, h10, h11, h12, h13⟩
    unfold dictToGspline
    simp only [check, get_of_lookup h1, get_of_lookup h2, get_of_lookup h3, get_of_lookup h5, get_of_lookup h7, get_of_lookup h9, get_of_lookup h11, isinstance_str, isinstance_float, isinstance_list, isinstance_dict, isCount_int h4,
      isCount_int h6, if_true, toDict, (C54_basis_accepts_iff db g.basis).mpr h8, toDouble, toSize_iff.mpr h4, toSize_iff.mpr h6, toEigen, h10, h12, okBind]
    unfold GSpline.make
    rw [if_pos ho, if_neg (not_not.mpr h13)]

/-- The dictionary of a basis describes it, and `True` is accepted for the dimension one. -/
example : DescribesBasis [("name", .str "legendre"), ("dim", .bool true), ("parameters", .list [.int 3, .float 2]), ("note", .none)] (.legendre 1) ∧
    DescribesBasis (basisToDict (.b0101 (1 / 2))) (.b0101 (1 / 2)) ∧ ¬ ∃ b, DescribesBasis [("name", .str "legendre"), ("dim", .float 4), ("parameters", .list [])] b := by
  refine ⟨⟨"legendre", .bool true, 1, [.int 3, .float 2], [((3 : ℤ) : ℝ), 2], by simp [List.lookup], by simp [List.lookup], .true, by simp [List.lookup],
    .cons (.int 3) (.cons (.float 2) .nil), .inl ⟨rfl, rfl⟩⟩, (C54_basis_accepts_iff _ _).mp (C54_basis_round_trip _ (by norm_num [Basis.dim]) (by rintro x ⟨⟩)), ?_⟩
  rintro ⟨b, name, vn, n, l, x, -, h2, h3, -⟩
  simp [List.lookup] at h2
  rw [← h2] at h3
  cases h3

/-- The dictionary of a spline describes it. -/
example (conv : Convert) (hconv : ConvertContract conv) : DescribesSpline conv (gsplineToDict exSpline) exSpline :=
  (C54_gspline_accepts_iff _ _ _).mp (C54_gspline_round_trip conv hconv exSpline exSpline_consistent (by norm_num [exSpline]) (by norm_num [exSpline, Basis.dim])
    (by norm_num [exSpline]) (by norm_num [exSpline]) (by rintro x ⟨⟩))

end GSplines.Props
