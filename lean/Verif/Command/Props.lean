import Verif.Command.Model

/-! Properties C64, C65. -/

namespace Verif.Command

/-- The pointers stored by a history. -/
def stored : List Op → List Nat
  | [] => []
  | .store p :: ops => p :: stored ops
  | _ :: ops => stored ops

/-- What is true of every reachable manager with limit `M` (with the stored pointers `ps`). -/
structure Inv (M : Nat) (m : Mgr) (ps : List Nat) : Prop where
  max : m.maxElements = M
  second : m.second = []
  first : m.first = ps.drop (ps.length - M)
  deleted : m.deleted = ps.take (ps.length - M)

theorem step_inv {M : Nat} (hM : 0 < M) {m : Mgr} {ps : List Nat} (h : Inv M m ps) (op : Op) :
    (∃ p, op = .store p ∧ ∃ m', step false m op = .ok (m', p) ∧ Inv M m' (ps ++ [p])) ∨
    (op = .undo ∧ (ps ≠ [] → step false m op = .ub) ∧ (ps = [] → step false m op = .ok (m, 0))) ∨
    ((op = .redo ∨ op = .dispose) ∧ step false m op = .ok (m, 0)) := by
  obtain ⟨m1, m2, m3, m4⟩ := m
  obtain ⟨h1, h2, h3, h4⟩ := h
  simp only at h1 h2 h3 h4
  subst h2
  cases op with
  | store p =>
    refine .inl ⟨p, rfl, _, rfl, ?_⟩
    refine ⟨h1, by simp [clip], ?_, ?_⟩
    · simp only [clip, h3, h1]
      by_cases c : ps.length < M
      · have e1 : ps.length - M = 0 := by omega
        have e2 : ps.length + 1 - M = 0 := by omega
        simp [e1, e2]
      · have e1 : (List.drop (ps.length - M) ps ++ [p]).length - M = 1 := by simp; omega
        simp only [List.length_nil, ne_eq, not_true_eq_false, if_false, e1]
        rw [List.drop_append_of_le_length (by simp; omega), List.drop_drop,
          List.drop_append_of_le_length (by simp; omega)]
        congr 2; simp; omega
    · simp only [clip, h3, h4, h1]
      by_cases c : ps.length < M
      · have : ps.length - M = 0 := by omega
        have e2 : ps.length + 1 - M = 0 := by omega
        simp [this, e2]
      · have e1 : (List.drop (ps.length - M) ps ++ [p]).length - M = 1 := by simp; omega
        simp only [List.length_nil, ne_eq, not_true_eq_false, if_false, e1, List.take_nil, List.append_nil]
        rw [List.take_append_of_le_length (by simp; omega),
          List.take_append_of_le_length (by simp; omega)]
        have : (ps ++ [p]).length - M = (ps.length - M) + 1 := by simp; omega
        rw [this, List.take_add]
  | undo =>
    refine .inr (.inl ⟨rfl, fun hne => ?_, fun he => ?_⟩)
    · have : m2.length ≠ 0 := by
        rw [h3]
        have := List.length_pos_iff.2 hne
        simp; omega
      simp [step, undo, this, popBack]
    · subst he
      simp at h3
      simp [step, undo, h3]
  | redo => exact .inr (.inr ⟨.inl rfl, by simp [step, redo]⟩)
  | dispose => exact .inr (.inr ⟨.inr rfl, by simp [step, dispose, disposeList]⟩)

theorem run_inv {M : Nat} (hM : 0 < M) (ops : List Op) : ∀ {m : Mgr} {ps : List Nat}, Inv M m ps → ∀ m' rs, run false m ops = .ok (m', rs) →
    Inv M m' (ps ++ stored ops) := by
  induction ops with
  | nil => intro m ps h m' rs e; simp [run] at e; rw [← e.1]; simpa [stored] using h
  | cons op ops ih =>
    intro m ps h m' rs e
    simp only [run] at e
    rw [Res.bind_eq_ok] at e
    obtain ⟨⟨m1, r⟩, e1, e⟩ := e
    rw [Res.bind_eq_ok] at e
    obtain ⟨⟨m2, rs2⟩, e2, e⟩ := e
    simp only [Res.ok.injEq, Prod.mk.injEq] at e
    have hm : m2 = m' := e.1
    subst hm
    rcases step_inv hM h op with ⟨p, rfl, m3, e3, h3⟩ | ⟨rfl, h3, h4⟩ | ⟨h5, h6⟩
    · rw [e1] at e3; injection e3 with e3; injection e3 with e3 e4; subst e3
      have := ih h3 _ _ e2
      simpa [stored] using this
    · by_cases c : ps = []
      · rw [h4 c] at e1; injection e1 with e1; injection e1 with e1 e4; subst e1
        exact ih h _ _ e2
      · rw [h3 c] at e1; cases e1
    · rw [h6] at e1; injection e1 with e1; injection e1 with e1 e4; subst e1
      have := ih h _ _ e2
      rcases h5 with rfl | rfl <;> exact this

theorem inv_new : Inv 1024 {} [] := ⟨rfl, rfl, rfl, rfl⟩

/-- C64 (full statement): storing, undoing and redoing on a new manager. -/
def C64_statement (noReturn : Bool) : Prop :=
  ∀ c : Nat, ∃ m, run noReturn {} [.store c, .undo, .redo] = .ok (m, [c, c, c])

/-- C64 is false: `store` flows off its end. -/
theorem C64_counterexample : ¬ C64_statement true := by
  intro h
  obtain ⟨m, h⟩ := h 1
  cases h

/-- Even with a return statement in `store`, `undo` with something stored pops an empty deque, in every reachable state. -/
theorem C64_counterexample_undo (ops : List Op) (m : Mgr) (rs : List Nat) (h : run false {} ops = .ok (m, rs))
    (hs : stored ops ≠ []) : undo m = .ub := by
  have := run_inv (by decide) ops inv_new m rs h
  rcases step_inv (by decide) this .undo with ⟨p, h1, -⟩ | ⟨-, h2, -⟩ | ⟨h5, -⟩
  · cases h1
  · exact h2 (by simpa using hs)
  · rcases h5 with h5 | h5 <;> cases h5

theorem C64_counterexample_return : ¬ C64_statement false := by
  intro h
  obtain ⟨m, h⟩ := h 1
  revert h
  have : run false {} [.store 1, .undo, .redo] = .ub := by decide
  rw [this]
  intro h; cases h

/-- C64 (part): with nothing stored `undo` and `redo` return `nullptr` and change nothing; `redo` always returns `nullptr`
(nothing ever reaches the redo list) and `dispose` deletes nothing.
Missing: undo and redo of a stored command, which the code does not do. -/
theorem C64_nothing_partial (ops : List Op) (m : Mgr) (rs : List Nat) (h : run false {} ops = .ok (m, rs)) :
    (stored ops = [] → undo m = .ok (m, 0)) ∧ redo m = .ok (m, 0) ∧ dispose m = (m, 0) := by
  have hi := run_inv (by decide) ops inv_new m rs h
  simp only [List.nil_append] at hi
  refine ⟨fun he => ?_, ?_, ?_⟩
  · rw [he] at hi
    rcases step_inv (by decide) hi .undo with ⟨p, h1, -⟩ | ⟨-, -, h3⟩ | ⟨h5, -⟩
    · cases h1
    · exact h3 rfl
    · rcases h5 with h5 | h5 <;> cases h5
  · rcases step_inv (by decide) hi .redo with ⟨p, h1, -⟩ | ⟨h1, -, h3⟩ | ⟨-, h5⟩
    · cases h1
    · cases h1
    · exact h5
  · rcases step_inv (by decide) hi .dispose with ⟨p, h1, -⟩ | ⟨h1, -, h3⟩ | ⟨-, h5⟩
    · cases h1
    · cases h1
    · simpa [step] using h5

example : run false {} [.undo, .redo, .store 7, .store 8, .redo, .dispose] =
    .ok ({ first := [7, 8] }, [0, 0, 7, 8, 0, 0]) := by decide

/-- C65 (full statement) for the code as written: storing completes, at most 1024 commands are kept, and after destruction
exactly the stored commands were deleted, each once. -/
def C65_statement (noReturn : Bool) : Prop :=
  ∀ ps : List Nat, ∃ m rs, run noReturn {} (ps.map .store) = .ok (m, rs) ∧ m.first.length ≤ 1024 ∧
    (destroy m).Perm ps

/-- C65 is false as written because `store` has no return statement. -/
theorem C65_counterexample : ¬ C65_statement true := by
  intro h
  obtain ⟨m, rs, h, -⟩ := h [1]
  cases h

/-- C65 (part): if `store` returned, then in every history (with any `undo`/`redo`/`dispose` that is defined) the manager
keeps exactly the last 1024 stored commands, has deleted the older ones oldest first, and after destruction exactly the
stored commands were deleted: each once if they were distinct.
Missing: the missing return statement (`C65_counterexample`). -/
theorem C65_history_partial (ops : List Op) (m : Mgr) (rs : List Nat) (h : run false {} ops = .ok (m, rs)) :
    m.first = (stored ops).drop ((stored ops).length - 1024) ∧ m.first.length ≤ 1024 ∧
    m.deleted = (stored ops).take ((stored ops).length - 1024) ∧ (destroy m).Perm (stored ops) ∧
    ((stored ops).Nodup → (destroy m).Nodup) := by
  have hi := run_inv (by decide) ops inv_new m rs h
  simp only [List.nil_append] at hi
  have hp : (destroy m).Perm (stored ops) := by
    unfold destroy disposeList
    rw [hi.second, hi.first, hi.deleted]
    simp only [List.reverse_nil, List.append_nil]
    refine (List.Perm.append_left _ (List.reverse_perm _)).trans ?_
    rw [List.take_append_drop]
  exact ⟨hi.first, by rw [hi.first]; simp; omega, hi.deleted, hp, fun hn => hp.nodup_iff.2 hn⟩

/-- Storing always completes in the version with a return statement. -/
theorem C65_stores_partial (ps : List Nat) : ∃ m, run false {} (ps.map .store) = .ok (m, ps) ∧ stored (ps.map .store) = ps := by
  have hst : ∀ ps : List Nat, stored (ps.map .store) = ps := by
    intro ps; induction ps with
    | nil => rfl
    | cons p ps ih => simp [stored, ih]
  have : ∀ (ps : List Nat) (m : Mgr), ∃ m', run false m (ps.map .store) = .ok (m', ps) := by
    intro ps
    induction ps with
    | nil => intro m; exact ⟨m, rfl⟩
    | cons p ps ih =>
      intro m
      obtain ⟨m1, h1⟩ : ∃ m1, step false m (.store p) = .ok (m1, p) := ⟨_, rfl⟩
      obtain ⟨m2, h2⟩ := ih m1
      exact ⟨m2, by simp only [List.map_cons, run, h1, Res.bind_ok, h2]⟩
  obtain ⟨m, h⟩ := this ps {}
  exact ⟨m, h, hst ps⟩

example : (run false { maxElements := 3 } ((List.range 5).map .store)).toOption.map (fun r => (r.1.deleted, r.1.first)) =
    some ([0, 1], [2, 3, 4]) := by decide

end Verif.Command
