import Verif.Spec.Options
import Mathlib.Tactic.NormNum
import Mathlib.Data.List.Nodup

/-!
# C51: solver options
-/

namespace GSplines.Props

open GSplines.Optim GSplines.Spec

theorem mem_setIn {α : Type} {name n : String} {v x : α} : ∀ {l : List (String × α)}, (l.map Prod.fst).Nodup →
    ((n, x) ∈ setIn l name v ↔ (n = name ∧ x = v) ∨ (n ≠ name ∧ (n, x) ∈ l))
  | [], _ => by
    simp only [setIn, List.mem_singleton, Prod.mk.injEq, List.not_mem_nil, and_false, or_false]
  | p :: ps, h => by
    rw [List.map_cons, List.nodup_cons] at h
    unfold setIn
    by_cases hp : p.1 = name
    · rw [if_pos hp]
      simp only [List.mem_cons, Prod.mk.injEq]
      constructor
      · rintro (⟨h1, h2⟩ | h1)
        · exact .inl ⟨h1.trans hp, h2⟩
        · refine .inr ⟨?_, .inr h1⟩
          rintro rfl
          exact h.1 (List.mem_map.mpr ⟨_, h1, hp.symm⟩)
      · rintro (⟨h1, h2⟩ | ⟨h1, h2 | h2⟩)
        · exact .inl ⟨h1.trans hp.symm, h2⟩
        · exact absurd ((congrArg Prod.fst h2).trans hp) h1
        · exact .inr h2
    · rw [if_neg hp]
      simp only [List.mem_cons, mem_setIn h.2]
      constructor
      · rintro (h1 | h1 | ⟨h1, h2⟩)
        · refine .inr ⟨?_, .inl h1⟩
          rintro rfl
          exact hp (congrArg Prod.fst h1).symm
        · exact .inl h1
        · exact .inr ⟨h1, .inr h2⟩
      · rintro (h1 | ⟨h1, h2 | h2⟩)
        · exact .inr (.inl h1)
        · exact .inl h2
        · exact .inr (.inr ⟨h1, h2⟩)

theorem names_setIn {α : Type} {name : String} {v : α} : ∀ {l : List (String × α)}, (l.map Prod.fst).Nodup → ((setIn l name v).map Prod.fst).Nodup
  | [], _ => by simp [setIn]
  | p :: ps, h => by
    rw [List.map_cons, List.nodup_cons] at h
    unfold setIn
    by_cases hp : p.1 = name
    · rw [if_pos hp, List.map_cons, List.nodup_cons]
      exact h
    · rw [if_neg hp, List.map_cons, List.nodup_cons]
      refine ⟨?_, names_setIn h.2⟩
      intro hm
      obtain ⟨q, hq, e⟩ := List.mem_map.mp hm
      rcases (mem_setIn (n := q.1) (x := q.2) h.2).mp hq with ⟨h1, -⟩ | ⟨-, h1⟩
      · exact hp (e.symm.trans h1)
      · exact h.1 (List.mem_map.mpr ⟨q, h1, e⟩)

/-- The names in each list of options are different. -/
structure NamesOk (o : Options) : Prop where
  str : (o.str.map Prod.fst).Nodup
  int : (o.int.map Prod.fst).Nodup
  dbl : (o.dbl.map Prod.fst).Nodup

/-- The options agree with the history. -/
structure Agrees (h : List OptionEvent) (o : Options) : Prop where
  str : ∀ n v, (n, v) ∈ o.str ↔ lastSet optionDefaults n 0 h = some (.str v)
  int : ∀ n v, (n, v) ∈ o.int ↔ lastSet optionDefaults n 1 h = some (.int v)
  dbl : ∀ n v, (n, v) ∈ o.dbl ↔ lastSet optionDefaults n 2 h = some (.dbl v)

theorem namesOk_initial : NamesOk Options.initial := by
  constructor <;> simp [Options.initial]

theorem find_map {α β : Type} (f : α → β) (p : β → Bool) (l : List α) : (l.map f).find? p = (l.find? fun a => p (f a)).map f := by
  induction l with
  | nil => rfl
  | cons a as ih => simp only [List.map_cons, List.find?_cons]; cases p (f a) <;> simp [ih]

theorem mem_find {α : Type} {l : List (String × α)} (h : (l.map Prod.fst).Nodup) (n : String) (v : α) :
    (n, v) ∈ l ↔ l.find? (fun p => p.1 = n) = some (n, v) := by
  induction l with
  | nil => simp
  | cons p ps ih =>
    rw [List.map_cons, List.nodup_cons] at h
    rw [List.find?_cons]
    by_cases hp : p.1 = n
    · simp only [hp, decide_true, List.mem_cons, Option.some.injEq]
      constructor
      · rintro (h1 | h1)
        · exact h1.symm
        · exact absurd (List.mem_map.mpr ⟨_, h1, hp.symm⟩) h.1
      · intro h1; exact .inl h1.symm
    · simp only [hp, decide_false, List.mem_cons]
      rw [← ih h.2]
      constructor
      · rintro (h1 | h1)
        · exact absurd (congrArg Prod.fst h1).symm hp
        · exact h1
      · exact .inr

theorem optionDefaults_eq : optionDefaults = Options.initial.str.map (fun p => (p.1, OptVal.str p.2)) ++ Options.initial.int.map (fun p => (p.1, OptVal.int p.2)) ++
    Options.initial.dbl.map (fun p => (p.1, OptVal.dbl p.2)) := rfl

theorem find_none_of_kind {l : List (String × OptVal)} {n : String} {k : ℕ} (h : ∀ p ∈ l, kind p.2 ≠ k) :
    l.find? (fun p => decide (p.1 = n ∧ kind p.2 = k)) = none := by
  rw [List.find?_eq_none]
  intro p hp
  simp [h p hp]

theorem agrees_initial : Agrees [] Options.initial := by
  have N := namesOk_initial
  constructor <;> intro n v
  · rw [mem_find N.str]
    unfold lastSet
    rw [optionDefaults_eq, List.find?_append, List.find?_append, find_none_of_kind (l := Options.initial.int.map _), find_none_of_kind (l := Options.initial.dbl.map _),
      find_map]
    · simp only [kind, and_true, Option.or_none]
      cases he : Options.initial.str.find? (fun p => decide (p.1 = n)) with
      | none => simp
      | some q =>
        have := List.find?_some he
        have hq : q.1 = n := by simpa using this
        simp only [Option.some.injEq, Option.map_some, OptVal.str.injEq]
        constructor
        · intro h; rw [h]
        · intro h; rw [← hq, ← h]
    · intro p hp; obtain ⟨q, -, rfl⟩ := List.mem_map.mp hp; simp [kind]
    · intro p hp; obtain ⟨q, -, rfl⟩ := List.mem_map.mp hp; simp [kind]
  · rw [mem_find N.int]
    unfold lastSet
    rw [optionDefaults_eq, List.find?_append, List.find?_append, find_none_of_kind (l := Options.initial.str.map _), find_none_of_kind (l := Options.initial.dbl.map _),
      find_map]
    · simp only [kind, and_true, Option.or_none, Option.none_or]
      cases he : Options.initial.int.find? (fun p => decide (p.1 = n)) with
      | none => simp
      | some q =>
        have := List.find?_some he
        have hq : q.1 = n := by simpa using this
        simp only [Option.some.injEq, Option.map_some, OptVal.int.injEq]
        constructor
        · intro h; rw [h]
        · intro h; rw [← hq, ← h]
    · intro p hp; obtain ⟨q, -, rfl⟩ := List.mem_map.mp hp; simp [kind]
    · intro p hp; obtain ⟨q, -, rfl⟩ := List.mem_map.mp hp; simp [kind]
  · rw [mem_find N.dbl]
    unfold lastSet
    rw [optionDefaults_eq, List.find?_append, List.find?_append, find_none_of_kind (l := Options.initial.str.map _), find_none_of_kind (l := Options.initial.int.map _),
      find_map]
    · simp only [kind, and_true, Option.none_or]
      cases he : Options.initial.dbl.find? (fun p => decide (p.1 = n)) with
      | none => simp
      | some q =>
        have := List.find?_some he
        have hq : q.1 = n := by simpa using this
        simp only [Option.some.injEq, Option.map_some, OptVal.dbl.injEq]
        constructor
        · intro h; rw [h]
        · intro h; rw [← hq, ← h]
    · intro p hp; obtain ⟨q, -, rfl⟩ := List.mem_map.mp hp; simp [kind]
    · intro p hp; obtain ⟨q, -, rfl⟩ := List.mem_map.mp hp; simp [kind]

theorem set_step {α : Type} {l : List (String × α)} (hl : (l.map Prod.fst).Nodup) {f : α → OptVal} (hf : ∀ a b, f a = f b → a = b) {k : ℕ} (hk : ∀ a, kind (f a) = k)
    {h : List OptionEvent} (hm : ∀ n v, (n, v) ∈ l ↔ lastSet optionDefaults n k h = some (f v)) (name : String) (x : α) (n : String) (v : α) :
    (n, v) ∈ setIn l name x ↔ lastSet optionDefaults n k (.set name (f x) :: h) = some (f v) := by
  rw [mem_setIn hl, lastSet]
  simp only [hk, and_true]
  by_cases hn : name = n
  · subst hn
    simp only [true_and, ne_eq, not_true_eq_false, false_and, or_false, if_true, Option.some.injEq]
    exact ⟨fun e => by rw [e], fun e => (hf _ _ e).symm⟩
  · rw [if_neg hn, ← hm]
    simp [Ne.symm hn]

theorem state_ok : ∀ h : List OptionEvent, NamesOk (theInstance (optionState h)) ∧ Agrees h (theInstance (optionState h))
  | [] => ⟨namesOk_initial, agrees_initial⟩
  | .solve :: h => by
    obtain ⟨N, A⟩ := state_ok h
    exact ⟨N, ⟨A.str, A.int, A.dbl⟩⟩
  | .set name v :: h => by
    obtain ⟨N, A⟩ := state_ok h
    cases v with
    | str v =>
      refine ⟨⟨names_setIn N.str, N.int, N.dbl⟩, ⟨fun n x => set_step N.str (f := .str) (by simp) (k := 0) (fun _ => rfl) A.str name v n x, fun n x => ?_, fun n x => ?_⟩⟩
      · rw [lastSet, if_neg (by simp [kind])]; exact A.int n x
      · rw [lastSet, if_neg (by simp [kind])]; exact A.dbl n x
    | int v =>
      refine ⟨⟨N.str, names_setIn N.int, N.dbl⟩, ⟨fun n x => ?_, fun n x => set_step N.int (f := .int) (by simp) (k := 1) (fun _ => rfl) A.int name v n x, fun n x => ?_⟩⟩
      · rw [lastSet, if_neg (by simp [kind])]; exact A.str n x
      · rw [lastSet, if_neg (by simp [kind])]; exact A.dbl n x
    | dbl v =>
      refine ⟨⟨N.str, N.int, names_setIn N.dbl⟩, ⟨fun n x => ?_, fun n x => ?_, fun n x => set_step N.dbl (f := .dbl) (by simp) (k := 2) (fun _ => rfl) A.dbl name v n x⟩⟩
      · rw [lastSet, if_neg (by simp [kind])]; exact A.str n x
      · rw [lastSet, if_neg (by simp [kind])]; exact A.int n x

/-- **C51.** After every history of `set_option` calls and optimisations (most recent first), the calls of the solver's `SetOption` are: every option that
has a value, with the value set last (or its default), and nothing else; every name at most once per kind; strings before integers before floating point
numbers. -/
theorem C51_options (h : List OptionEvent) :
    (∀ n v, (n, v) ∈ (forward (optionState h)).2 ↔ lastSet optionDefaults n (kind v) h = some v) ∧
    ((forward (optionState h)).2.map fun p => (p.1, kind p.2)).Nodup ∧
    (forward (optionState h)).2.Pairwise (fun p q => kind p.2 ≤ kind q.2) := by
  obtain ⟨N, A⟩ := state_ok h
  refine ⟨fun n v => ?_, ?_, ?_⟩
  · unfold forward
    simp only [List.mem_append, List.mem_map, Prod.mk.injEq]
    cases v with
    | str v =>
      rw [show kind (OptVal.str v) = 0 from rfl, ← A.str]
      constructor
      · rintro ((⟨p, hp, h1, h2⟩ | ⟨p, -, -, h2⟩) | ⟨p, -, -, h2⟩)
        · cases h2; rw [← h1]; exact hp
        · cases h2
        · cases h2
      · intro hp; exact .inl (.inl ⟨_, hp, rfl, rfl⟩)
    | int v =>
      rw [show kind (OptVal.int v) = 1 from rfl, ← A.int]
      constructor
      · rintro ((⟨p, -, -, h2⟩ | ⟨p, hp, h1, h2⟩) | ⟨p, -, -, h2⟩)
        · cases h2
        · cases h2; rw [← h1]; exact hp
        · cases h2
      · intro hp; exact .inl (.inr ⟨_, hp, rfl, rfl⟩)
    | dbl v =>
      rw [show kind (OptVal.dbl v) = 2 from rfl, ← A.dbl]
      constructor
      · rintro ((⟨p, -, -, h2⟩ | ⟨p, -, -, h2⟩) | ⟨p, hp, h1, h2⟩)
        · cases h2
        · cases h2
        · cases h2; rw [← h1]; exact hp
      · intro hp; exact .inr ⟨_, hp, rfl, rfl⟩
  · have key : ∀ {α : Type} (f : α → OptVal) (k : ℕ), (∀ a, kind (f a) = k) → ∀ l : List (String × α), (l.map Prod.fst).Nodup →
        ((l.map fun p => (p.1, f p.2)).map fun p => (p.1, kind p.2)).Nodup := by
      intro α f k hf l hl
      rw [List.map_map, show ((fun p : String × OptVal => (p.1, kind p.2)) ∘ fun p : String × α => (p.1, f p.2)) = fun p : String × α => (p.1, k) by
        funext p; simp [hf]]
      rw [show (fun p : String × α => (p.1, k)) = (fun n : String => (n, k)) ∘ Prod.fst from rfl, ← List.map_map]
      exact hl.map fun a b e => (Prod.mk.inj e).1
    unfold forward
    simp only [List.map_append]
    rw [List.nodup_append, List.nodup_append]
    refine ⟨⟨key .str 0 (fun _ => rfl) _ N.str, key .int 1 (fun _ => rfl) _ N.int, ?_⟩, key .dbl 2 (fun _ => rfl) _ N.dbl, ?_⟩
    · intro a ha b hb e
      simp only [List.mem_map] at ha hb
      obtain ⟨_, ⟨p, -, rfl⟩, rfl⟩ := ha
      obtain ⟨_, ⟨q, -, rfl⟩, rfl⟩ := hb
      simp [kind] at e
    · intro a ha b hb e
      simp only [List.mem_append, List.mem_map] at ha hb
      obtain ⟨_, ⟨q, -, rfl⟩, rfl⟩ := hb
      rcases ha with ⟨_, ⟨p, -, rfl⟩, rfl⟩ | ⟨_, ⟨p, -, rfl⟩, rfl⟩ <;> simp [kind] at e
  · have key : ∀ {α : Type} (f : α → OptVal) (k : ℕ), (∀ a, kind (f a) = k) → ∀ l : List (String × α),
        (l.map fun p => (p.1, f p.2)).Pairwise (fun p q => kind p.2 ≤ kind q.2) := by
      intro α f k hf l
      rw [List.pairwise_map]
      exact List.pairwise_of_forall fun a b => by simp [hf]
    unfold forward
    simp only
    rw [List.pairwise_append, List.pairwise_append]
    refine ⟨⟨key .str 0 (fun _ => rfl) _, key .int 1 (fun _ => rfl) _, ?_⟩, key .dbl 2 (fun _ => rfl) _, ?_⟩
    · intro a ha b hb
      obtain ⟨p, -, rfl⟩ := List.mem_map.mp ha
      exact Nat.zero_le _
    · intro a ha b hb
      obtain ⟨q, -, rfl⟩ := List.mem_map.mp hb
      cases a.2 <;> simp [kind]

/-- The tolerance was set twice, with an optimisation in between; a new integer option was set; a string with the name of the integer option was set too. -/
example : let h := [OptionEvent.set "print_level" (.str "x"), .set "tol" (.dbl 5), .solve, .set "max_iter" (.int 7), .set "tol" (.dbl 3)]
    ("tol", OptVal.dbl 5) ∈ (forward (optionState h)).2 ∧ ("tol", OptVal.dbl 3) ∉ (forward (optionState h)).2 ∧
    ("max_iter", OptVal.int 7) ∈ (forward (optionState h)).2 ∧ ("print_level", OptVal.int 0) ∈ (forward (optionState h)).2 ∧
    ("print_level", OptVal.str "x") ∈ (forward (optionState h)).2 ∧ ("derivative_test", OptVal.str "none") ∈ (forward (optionState h)).2 := by
  intro h
  simp only [(C51_options h).1]
  simp [h, lastSet, kind, optionDefaults]

end GSplines.Props
