import Verif.Command.Props

/-! C64 exactly: which histories of a command manager are defined, and what their calls return. -/

namespace Verif.Command

/-- Some `undo` is called after a `store`. -/
def Spec.UndoAfterStore (ops : List Op) : Prop := ∃ a b p, ops = a ++ .undo :: b ∧ .store p ∈ a

/-- What the calls return: `store` its argument, the others `nullptr` (0 items disposed). -/
def Spec.reply : Op → Nat
  | .store p => p
  | _ => 0

open Spec

theorem run_after {M : Nat} (hM : 0 < M) (ops : List Op) : ∀ {m : Mgr} {ps : List Nat}, Inv M m ps → ps ≠ [] →
    (.undo ∈ ops → run false m ops = .ub) ∧ (.undo ∉ ops → ∃ m', run false m ops = .ok (m', ops.map reply)) := by
  induction ops with
  | nil => intro m ps _ _; exact ⟨(fun h => by cases h), fun _ => ⟨m, rfl⟩⟩
  | cons op ops ih =>
    intro m ps h hne
    rcases step_inv hM h op with ⟨p, rfl, m3, e3, h3⟩ | ⟨rfl, h3, -⟩ | ⟨h5, h6⟩
    · obtain ⟨i1, i2⟩ := ih h3 (by simp)
      refine ⟨fun hu => ?_, fun hu => ?_⟩
      · simp only [run, e3, Res.bind_ok]
        rw [i1 (by simpa using hu)]; rfl
      · obtain ⟨m', e'⟩ := i2 (fun hm => hu (List.mem_cons_of_mem _ hm))
        exact ⟨m', by simp only [run, e3, Res.bind_ok, e', List.map_cons, reply]⟩
    · exact ⟨fun _ => by simp only [run, h3 hne]; rfl, fun hu => absurd List.mem_cons_self hu⟩
    · obtain ⟨i1, i2⟩ := ih h hne
      have hr : reply op = 0 := by rcases h5 with rfl | rfl <;> rfl
      have hx : .undo ≠ op := by rcases h5 with rfl | rfl <;> decide
      refine ⟨fun hu => ?_, fun hu => ?_⟩
      · simp only [run, h6, Res.bind_ok]
        rw [i1 ((List.mem_cons.1 hu).resolve_left hx)]; rfl
      · obtain ⟨m', e'⟩ := i2 (fun hm => hu (List.mem_cons_of_mem _ hm))
        exact ⟨m', by simp only [run, h6, Res.bind_ok, e', List.map_cons, hr]⟩

theorem undoAfter_cons_store (p : Nat) (ops : List Op) : UndoAfterStore (.store p :: ops) ↔ .undo ∈ ops := by
  constructor
  · rintro ⟨a, b, q, e, hq⟩
    cases a with
    | nil => cases hq
    | cons x a =>
      injection e with e1 e2
      rw [e2]; simp
  · intro h
    obtain ⟨a, b, e⟩ := List.append_of_mem h
    exact ⟨.store p :: a, b, p, by rw [e]; rfl, List.mem_cons_self⟩

theorem undoAfter_cons_other {op : Op} (hop : ∀ p, op ≠ .store p) (ops : List Op) :
    UndoAfterStore (op :: ops) ↔ UndoAfterStore ops := by
  constructor
  · rintro ⟨a, b, q, e, hq⟩
    cases a with
    | nil => cases hq
    | cons x a =>
      injection e with e1 e2
      exact ⟨a, b, q, e2, (List.mem_cons.1 hq).resolve_left (fun h => hop q (by rw [e1, h]))⟩
  · rintro ⟨a, b, q, e, hq⟩
    exact ⟨op :: a, b, q, by rw [e]; rfl, List.mem_cons_of_mem _ hq⟩

/-- **C64** exactly as the code behaves.  If `store` returned (`run false`), a history on a new manager would be undefined if and only if
some `undo` comes after a `store`; otherwise every `store` returns its command and every `undo` and `redo` returns `nullptr`, so no command
ever comes back.  As written (`run true`) a history is undefined if and only if it stores a command at all. -/
theorem C64_exact (ops : List Op) :
    (UndoAfterStore ops → run false {} ops = .ub) ∧
    (¬ UndoAfterStore ops → ∃ m, run false {} ops = .ok (m, ops.map reply)) ∧
    ((∃ p, .store p ∈ ops) → run true {} ops = .ub) ∧
    ((∀ p, .store p ∉ ops) → run true {} ops = .ok ({}, ops.map reply)) := by
  refine ⟨?_, ?_, ?_, ?_⟩
  · induction ops with
    | nil => rintro ⟨a, b, q, e, hq⟩; cases a <;> cases e
    | cons op ops ih =>
      intro h
      cases op with
      | store p =>
        rw [undoAfter_cons_store] at h
        rcases step_inv (by decide) inv_new (.store p) with ⟨q, e, m3, e3, h3⟩ | ⟨e, -⟩ | ⟨e | e, -⟩
        · simp only [run, e3, Res.bind_ok]
          rw [(run_after (by decide) ops h3 (by simp)).1 h]; rfl
        all_goals cases e
      | undo => rw [undoAfter_cons_other (fun p e => by cases e)] at h; simp only [run, step, undo]; simp [ih h]
      | redo => rw [undoAfter_cons_other (fun p e => by cases e)] at h; simp only [run, step, redo]; simp [ih h]
      | dispose => rw [undoAfter_cons_other (fun p e => by cases e)] at h; simp only [run, step, dispose]; simp [disposeList, ih h]
  · induction ops with
    | nil => intro _; exact ⟨{}, rfl⟩
    | cons op ops ih =>
      intro h
      cases op with
      | store p =>
        rw [undoAfter_cons_store] at h
        rcases step_inv (by decide) inv_new (.store p) with ⟨q, e, m3, e3, h3⟩ | ⟨e, -⟩ | ⟨e | e, -⟩
        · injection e with e; subst e
          obtain ⟨m', e'⟩ := (run_after (by decide) ops h3 (by simp)).2 h
          exact ⟨m', by simp only [run, e3, Res.bind_ok, e', List.map_cons, reply]⟩
        all_goals cases e
      | undo =>
        rw [undoAfter_cons_other (fun p e => by cases e)] at h
        obtain ⟨m, e⟩ := ih h
        exact ⟨m, by simp [run, step, undo, e, reply]⟩
      | redo =>
        rw [undoAfter_cons_other (fun p e => by cases e)] at h
        obtain ⟨m, e⟩ := ih h
        exact ⟨m, by simp [run, step, redo, e, reply]⟩
      | dispose =>
        rw [undoAfter_cons_other (fun p e => by cases e)] at h
        obtain ⟨m, e⟩ := ih h
        exact ⟨m, by simp [run, step, dispose, disposeList, e, reply]⟩
  · induction ops with
    | nil => rintro ⟨p, h⟩; cases h
    | cons op ops ih =>
      rintro ⟨p, h⟩
      cases op with
      | store q => rfl
      | undo => simp only [run, step, undo]; simp [ih ⟨p, by simpa using h⟩]
      | redo => simp only [run, step, redo]; simp [ih ⟨p, by simpa using h⟩]
      | dispose => simp only [run, step, dispose]; simp [disposeList, ih ⟨p, by simpa using h⟩]
  · induction ops with
    | nil => intro _; rfl
    | cons op ops ih =>
      intro h
      have ih := ih (fun p hp => h p (List.mem_cons_of_mem _ hp))
      cases op with
      | store q => exact absurd List.mem_cons_self (h q)
      | undo => simp [run, step, undo, ih, reply]
      | redo => simp [run, step, redo, ih, reply]
      | dispose => simp [run, step, dispose, disposeList, ih, reply]

example : UndoAfterStore [.store 1, .redo, .undo] ∧ run false {} [.store 1, .redo, .undo] = .ub ∧
    run false {} [.undo, .store 1, .redo] = .ok ({ first := [1] }, [0, 1, 0]) :=
  ⟨⟨[.store 1, .redo], [], 1, rfl, by simp⟩, by decide, by decide⟩
example : ¬ UndoAfterStore [.undo, .store 1, .redo] := by
  rw [undoAfter_cons_other (fun p e => by cases e), undoAfter_cons_store]; decide

end Verif.Command
