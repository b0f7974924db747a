import Verif.Proofs.FnDerivN

/-!
# Objects built by the interface can be derived
-/

namespace GSplines.Fn

open GSplines Spec

theorem good_args {d : ℝ × ℝ} {c : ℕ} {ty : Ty} {args : List Fn} (h : Good (expr d c ty args)) : (∀ a ∈ args, Good a) ∧ Shape d c ty args := by
  cases h with
  | expr _ _ _ _ h1 h2 => exact ⟨h1, h2⟩

theorem good_toExpr {f : Fn} (h : Good f) : Good f.toExpr := by
  cases f <;> first | exact h | exact good_wrap h


/-- What an operand contributes to a sum or a product. -/
theorem splice_cases {f : Fn} (ty : Ty) (hg : Good f) :
    (∃ a, splice ty f = [a] ∧ Good a ∧ a.dom = f.dom ∧ a.codim = f.codim) ∨ ∃ d c args, f = expr d c ty args ∧ splice ty f = args := by
  cases f with
  | expr d c t args =>
    rw [splice_expr]
    split_ifs with h
    · rcases h with rfl | rfl
      · exact .inr ⟨d, c, args, rfl, rfl⟩
      · obtain ⟨h1, a, rfl, h2, h3⟩ := good_args hg
        exact .inl ⟨a, rfl, h1 a (by simp), h2, h3⟩
    · exact .inl ⟨_, rfl, hg, rfl, rfl⟩
  | _ => exact .inl ⟨_, by simp [splice, parts], good_clone hg, dom_clone _, codim_clone _⟩

theorem splice_sum_good {f : Fn} (hg : Good f) :
    (∃ a rest, splice .sum f = a :: rest ∧ a.dom = f.dom) ∧ ∀ x ∈ splice .sum f, Good x ∧ x.codim = f.codim := by
  rcases splice_cases .sum hg with ⟨a, e, h1, h2, h3⟩ | ⟨d, c, args, rfl, e⟩
  · rw [e]
    exact ⟨⟨a, [], rfl, h2⟩, by simpa using ⟨h1, h3⟩⟩
  · rw [e]
    obtain ⟨h1, h2, h3⟩ := good_args hg
    exact ⟨h2, fun x hx => ⟨h1 x hx, h3 x hx⟩⟩

theorem splice_mul_good {f : Fn} (hg : Good f) :
    (∃ a rest, splice .mul f = a :: rest ∧ a.dom = f.dom ∧ a.codim = f.codim ∧ ∀ b ∈ rest, b.codim = 1) ∧ ∀ x ∈ splice .mul f, Good x := by
  rcases splice_cases .mul hg with ⟨a, e, h1, h2, h3⟩ | ⟨d, c, args, rfl, e⟩
  · rw [e]
    exact ⟨⟨a, [], rfl, h2, h3, by simp⟩, by simpa using h1⟩
  · rw [e]
    obtain ⟨h1, a, rest, rfl, h2, h3, h4⟩ := good_args hg
    exact ⟨⟨a, rest, rfl, h2, h3, h4⟩, h1⟩

theorem chain_comp_good {f : Fn} (hg : Good f) : (∃ a rest, chain .comp f = a :: rest ∧ a.dom = f.dom) ∧
    (∃ init z, chain .comp f = init ++ [z] ∧ z.codim = f.codim ∧ ∀ b ∈ init, b.codim = 1) ∧ ∀ x ∈ chain .comp f, Good x := by
  unfold chain
  split_ifs with h
  · cases f with
    | expr d c t args =>
      change t = _ at h
      subst h
      obtain ⟨h1, h2, h3⟩ := good_args hg
      exact ⟨h2, h3, h1⟩
    | _ => simp [parts] at h
  · exact ⟨⟨_, [], rfl, toExpr_dom f⟩, ⟨[], _, rfl, toExpr_codim f, by simp⟩, by simpa using good_toExpr hg⟩

theorem chain_concat_good {f : Fn} (hg : Good f) : ∀ x ∈ chain .concat f, Good x ∧ x.codim = f.codim := by
  unfold chain
  split_ifs with h
  · cases f with
    | expr d c t args =>
      change t = _ at h
      subst h
      obtain ⟨h1, h2, h3⟩ := good_args hg
      exact fun x hx => ⟨h1 x hx, h3 x hx⟩
    | _ => simp [parts] at h
  · simpa using ⟨good_toExpr hg, toExpr_codim f⟩

theorem good_sum {f g : Fn} (hf : Good f) (hg : Good g) (hc : f.codim = g.codim) :
    Good (expr f.dom f.codim .sum (splice .sum f ++ splice .sum g)) := by
  obtain ⟨⟨a, rest, e, h1⟩, h2⟩ := splice_sum_good hf
  obtain ⟨-, h4⟩ := splice_sum_good hg
  refine .expr _ _ _ _ ?_ ⟨⟨a, rest ++ splice .sum g, by rw [e]; rfl, h1⟩, ?_⟩
  · intro x hx
    rcases List.mem_append.mp hx with hx | hx
    · exact (h2 x hx).1
    · exact (h4 x hx).1
  · intro x hx
    rcases List.mem_append.mp hx with hx | hx
    · exact (h2 x hx).2
    · rw [(h4 x hx).2, hc]

theorem good_add {f g r : Fn} (hf : Good f) (hg : Good g) (h : add f g = .ok r) : Good r ∧ r.codim = f.codim := by
  unfold add at h
  by_cases h1 : sameDomain f g
  · rw [if_neg (not_not.mpr h1)] at h
    by_cases h2 : f.codim = g.codim
    · rw [if_neg (not_not.mpr h2)] at h
      injection h with h
      subst h
      exact ⟨good_sum hf hg h2, rfl⟩
    · rw [if_pos h2] at h; simp at h
  · rw [if_pos h1] at h; simp at h

theorem good_product {v s : Fn} (hv : Good v) (hs : Good s) (hc : s.codim = 1) : Good (expr v.dom v.codim .mul (splice .mul v ++ splice .mul s)) := by
  obtain ⟨⟨a, rest, e, h1, h2, h3⟩, h4⟩ := splice_mul_good hv
  obtain ⟨⟨b, rest', e', -, h6, h7⟩, h8⟩ := splice_mul_good hs
  refine .expr _ _ _ _ ?_ ⟨a, rest ++ splice .mul s, by rw [e]; rfl, h1, h2, ?_⟩
  · intro x hx
    rcases List.mem_append.mp hx with hx | hx
    · exact h4 x hx
    · exact h8 x hx
  · intro x hx
    rcases List.mem_append.mp hx with hx | hx
    · exact h3 x hx
    · rw [e'] at hx
      rcases List.mem_cons.mp hx with rfl | hx
      · rw [h6, hc]
      · exact h7 x hx

theorem good_mul {f g r : Fn} (ov : Ov) (hf : Good f) (hg : Good g) (pf : 0 < f.codim) (pg : 0 < g.codim) (hd : f.dom = g.dom)
    (h : mul ov f g = .ok r) : Good r ∧ 0 < r.codim := by
  unfold mul at h
  by_cases h1 : sameDomain f g
  · rw [if_neg (not_not.mpr h1)] at h
    by_cases h2 : 1 < f.codim ∧ 1 < g.codim
    · rw [if_pos h2] at h; simp at h
    · rw [if_neg h2] at h
      dsimp only at h
      injection h with h
      subst h
      have hdom : ∀ x : Fn, (x = f ∨ x = g) → (if ov.this ∨ ov.that then f.dom else x.dom) = x.dom := by
        intro x hx
        split_ifs
        · rcases hx with rfl | rfl
          · rfl
          · exact hd
        · rfl
      by_cases hle : g.codim ≤ f.codim
      · simp only [if_pos hle]
        rw [hdom f (.inl rfl)]
        exact ⟨good_product hf hg (by omega), pf⟩
      · simp only [if_neg hle]
        rw [hdom g (.inr rfl)]
        exact ⟨good_product hg hf (by omega), pg⟩
  · rw [if_pos h1] at h; simp at h

theorem good_neg_op {f : Fn} (hf : Good f) (hu : f.parts.1 = .unique) : Good f.neg := by
  unfold neg
  cases f with
  | expr d c t args =>
    change t = _ at hu
    subst hu
    obtain ⟨h1, a, rfl, h2, h3⟩ := good_args hf
    exact .expr _ _ _ _ h1 ⟨a, rfl, h2, h3⟩
  | _ => exact .expr _ _ _ _ (by simpa [parts] using good_clone hf) ⟨_, rfl, dom_clone _, codim_clone _⟩

theorem good_compose {f g r : Fn} (ov : Ov) (hf : Good f) (hg : Good g) (pg : 0 < g.codim) (h : compose ov f g = .ok r) (hd : r.dom = g.dom) :
    Good r ∧ r.codim = f.codim := by
  unfold compose at h
  by_cases h1 : 1 < g.codim
  · rw [if_pos h1] at h; simp at h
  rw [if_neg h1] at h
  dsimp only at h
  injection h with h
  subst h
  change (if ov.this ∧ ¬ov.that ∧ f.parts.1 = Ty.comp then f.dom else g.dom) = g.dom at hd
  rw [hd]
  obtain ⟨⟨a, rest, e, h2⟩, ⟨init', z', e', h3, h4⟩, h5⟩ := chain_comp_good hg
  obtain ⟨-, ⟨init, z, ez, h6, h7⟩, h8⟩ := chain_comp_good hf
  refine ⟨.expr _ _ _ _ ?_ ⟨⟨a, rest ++ chain .comp f, by rw [e]; rfl, h2⟩, chain .comp g ++ init, z, by rw [ez, List.append_assoc], h6, ?_⟩, rfl⟩
  · intro x hx
    rcases List.mem_append.mp hx with hx | hx
    · exact h5 x hx
    · exact h8 x hx
  · intro x hx
    rcases List.mem_append.mp hx with hx | hx
    · rw [e'] at hx
      rcases List.mem_append.mp hx with hx | hx
      · exact h4 x hx
      · rw [List.mem_singleton.mp hx, h3]; omega
    · exact h7 x hx

theorem good_concat {f g r : Fn} (ov : Ov) (hf : Good f) (hg : Good g) (jf : Spec.Joined f) (jg : Spec.Joined g) (hj : f.dom.2 = g.dom.1)
    (h : concat ov f g = .ok r) (hd : r.dom = (f.dom.1, g.dom.2)) : Good r ∧ r.codim = f.codim := by
  have key : f.codim = g.codim → ∀ d : ℝ × ℝ, d = (f.dom.1, g.dom.2) → Good (expr d f.codim .concat (chain .concat f ++ chain .concat g)) := by
    rintro hc d rfl
    have hp := pieces_append (pieces_chain jf) (by rw [hj]; exact pieces_chain jg)
    refine .expr _ _ _ _ ?_ ⟨hp, ?_⟩
    · intro x hx
      rcases List.mem_append.mp hx with hx | hx
      · exact (chain_concat_good hf x hx).1
      · exact (chain_concat_good hg x hx).1
    · intro x hx
      rcases List.mem_append.mp hx with hx | hx
      · exact (chain_concat_good hf x hx).2
      · rw [(chain_concat_good hg x hx).2, hc]
  unfold concat at h
  by_cases h1 : f.codim = g.codim
  · rw [if_neg (not_not.mpr h1)] at h
    split_ifs at h
    all_goals
      injection h with h
      subst h
      exact ⟨key h1 _ hd, rfl⟩
  · rw [if_pos h1] at h; simp at h

theorem good_mkDot {f g r : Fn} (hf : Good f) (hg : Good g) (hd : f.dom = g.dom) (h : mkDot f g = .ok r) : Good r ∧ r.codim = 1 := by
  unfold mkDot at h
  split_ifs at h with hc
  injection h with h
  subst h
  exact ⟨.dot _ _ _ (good_wrap hf) (good_wrap hg) hc rfl hd.symm, rfl⟩

theorem good_of_regular {f : Fn} (h : Regular f) : Good f ∧ 0 < f.codim := by
  induction h with
  | const d v hv => exact ⟨.const d v, List.length_pos_iff.mpr hv⟩
  | dil d c => exact ⟨.dil d c, Nat.one_pos⟩
  | ident d => exact ⟨.ident d, Nat.one_pos⟩
  | exp d => exact ⟨.exp d, Nat.one_pos⟩
  | cos d => exact ⟨.cos d, Nat.one_pos⟩
  | sin d => exact ⟨.sin d, Nat.one_pos⟩
  | poly d a ha => exact ⟨.poly d a ha, Nat.one_pos⟩
  | user d c F hc => exact ⟨.user d c F, hc⟩
  | gspl g hc h1 h2 h3 h4 => exact ⟨.gspl g h1 h2 h3 h4, hc⟩
  | toExpr _ ih => exact ⟨good_toExpr ih.1, by rw [toExpr_codim]; exact ih.2⟩
  | wrap _ ih => exact ⟨good_wrap ih.1, ih.2⟩
  | add _ _ h ihf ihg =>
    obtain ⟨h1, h2⟩ := good_add ihf.1 ihg.1 h
    exact ⟨h1, by rw [h2]; exact ihf.2⟩
  | neg _ hu ih => exact ⟨good_neg_op ih.1 hu, ih.2⟩
  | sub _ _ hu h ihf ihg =>
    unfold sub at h
    split_ifs at h
    obtain ⟨h1, h2⟩ := good_add ihf.1 (good_neg_op ihg.1 hu) h
    exact ⟨h1, by rw [h2]; exact ihf.2⟩
  | mul ov _ _ hd h ihf ihg => exact good_mul ov ihf.1 ihg.1 ihf.2 ihg.2 hd h
  | smul k _ h ih =>
    unfold smul at h
    exact good_mul _ (good_wrap (.const _ _)) ih.1 (by change 0 < 1; omega) ih.2 rfl h
  | compose ov _ _ h hd ihf ihg =>
    obtain ⟨h1, h2⟩ := good_compose ov ihf.1 ihg.1 ihg.2 h hd
    exact ⟨h1, by rw [h2]; exact ihf.2⟩
  | concat ov _ _ jf jg hj h hd ihf ihg =>
    obtain ⟨h1, h2⟩ := good_concat ov ihf.1 ihg.1 jf jg hj h hd
    exact ⟨h1, by rw [h2]; exact ihf.2⟩
  | dot ov _ _ hd h ihf ihg =>
    unfold dotOp at h
    split_ifs at h
    · obtain ⟨h1, h2⟩ := good_mkDot ihg.1 ihf.1 hd.symm h
      exact ⟨h1, by omega⟩
    · obtain ⟨h1, h2⟩ := good_mkDot ihf.1 ihg.1 hd h
      exact ⟨h1, by omega⟩
  | @addInPlace f g _ _ hc ihf ihg =>
    rw [addInPlace, inPlace_eq]
    obtain ⟨⟨a, rest, e, h1⟩, h2⟩ := splice_sum_good ihf.1
    refine ⟨.expr _ _ _ _ ?_ ⟨⟨a, rest ++ [g.toExpr], by rw [e]; rfl, h1⟩, ?_⟩, ihf.2⟩
    · intro x hx
      rcases List.mem_append.mp hx with hx | hx
      · exact (h2 x hx).1
      · rw [List.mem_singleton.mp hx]; exact good_toExpr ihg.1
    · intro x hx
      rcases List.mem_append.mp hx with hx | hx
      · exact (h2 x hx).2
      · rw [List.mem_singleton.mp hx, toExpr_codim, hc]
  | @mulInPlace f g _ _ hc ihf ihg =>
    rw [mulInPlace, inPlace_eq]
    obtain ⟨⟨a, rest, e, h1, h2, h3⟩, h4⟩ := splice_mul_good ihf.1
    refine ⟨.expr _ _ _ _ ?_ ⟨a, rest ++ [g.toExpr], by rw [e]; rfl, h1, h2, ?_⟩, ihf.2⟩
    · intro x hx
      rcases List.mem_append.mp hx with hx | hx
      · exact h4 x hx
      · rw [List.mem_singleton.mp hx]; exact good_toExpr ihg.1
    · intro x hx
      rcases List.mem_append.mp hx with hx | hx
      · exact h3 x hx
      · rw [List.mem_singleton.mp hx, toExpr_codim, hc]
  | derivate n _ ho h ih =>
    obtain ⟨f', h1, h2, h3, h4, -⟩ := deriv_nstep ih.1 ho
    unfold derivate at h
    rw [h1] at h
    injection h with h
    subst h
    exact ⟨.expr _ _ _ _ (by simpa using h2) ⟨f', rfl, h3, h4⟩, ih.2⟩
  | deriv n _ ho h ih =>
    obtain ⟨f', h1, h2, h3, h4, -⟩ := deriv_nstep ih.1 ho
    rw [h1] at h
    injection h with h
    subst h
    exact ⟨h2, by rw [h4]; exact ih.2⟩

/-- Orders up to two are right for every basis. -/
theorem orderOk_le_two {n : ℕ} (hn : n ≤ 2) (f : Fn) : OrderOk n f := by
  induction f using ind with
  | hconst d v => exact .const d v
  | hdil d c => exact .dil d c
  | hident d => exact .ident d
  | hexp d => exact .exp d
  | hcos d => exact .cos d
  | hsin d => exact .sin d
  | hpoly d a => exact .poly d a
  | huser d c F => exact .user d c F
  | hgspl g => exact .gspl g (by cases g.basis <;> simp [Basis.MatOrderOk, hn])
  | hdot d a b _ _ => exact .dot d a b
  | hexpr d c ty args ih => exact .expr d c ty args ih

end GSplines.Fn
