import Verif.Command.Props

/-!
Property C174: programs with several command managers.

The class (command.h:9-80) declares a destructor and nothing else, so its copy constructor and copy assignment are the
implicit ones, which copy the deques of pointers; for the same reason there are no implicit moves, and rvalues are copied too.

`delete` of a pointer that was deleted before is UB, of `nullptr` has no effect.  Calls on managers that do not exist (any more)
are not part of a program and are skipped.  `store` is the version with a return statement (C64, C65: the code as written is UB).
-/

namespace Verif.Command

/-- The managers of a program (`none` once destroyed) and the deleted pointers.  Only for the statements: `taken` are the
pointers handed over by `store`, `lost` those of managers that were assigned over. -/
structure World where
  ms : List (Option Mgr) := []
  dead : List Nat := []
  taken : List Nat := []
  lost : List Nat := []
deriving DecidableEq, Repr

/-- `delete` of each pointer. -/
def delAll : List Nat → List Nat → Res (List Nat)
  | dead, [] => .ok dead
  | dead, p :: ps => if p = 0 then delAll dead ps else if p ∈ dead then .ub else delAll (dead ++ [p]) ps

def World.mgr (w : World) (i : Nat) : Option Mgr := (w.ms[i]?).join

inductive POp where
  /-- A new manager. -/
  | new
  /-- A call on manager `i`. -/
  | call (i : Nat) (op : Op)
  /-- `command_manager_t b(a)` or `command_manager_t b(std::move(a))`, `a` being manager `i`. -/
  | copy (i : Nat)
  /-- `a = b` or `a = std::move(b)`, `a` being manager `i` and `b` manager `j`. -/
  | assign (i j : Nat)
  /-- The end of the lifetime of manager `i`. -/
  | destroy (i : Nat)
deriving DecidableEq, Repr

def pstep (w : World) : POp → Res World
  | .new => .ok { w with ms := w.ms ++ [some {}] }
  | .call i op =>
    match w.mgr i with
    | none => .ok w
    | some m => do
      let (m', _) ← step false m op
      let d ← delAll w.dead m'.deleted
      .ok { w with ms := w.ms.set i (some { m' with deleted := [] }), dead := d, taken := w.taken ++ stored [op] }
  | .copy i =>
    match w.mgr i with
    | none => .ok w
    | some m => .ok { w with ms := w.ms ++ [some m] }
  | .assign i j =>
    match w.mgr i, w.mgr j with
    | some a, some b =>
      if i = j then .ok w
      else .ok { w with ms := w.ms.set i (some b), lost := w.lost ++ a.first ++ a.second }
    | _, _ => .ok w
  | .destroy i =>
    match w.mgr i with
    | none => .ok w
    | some m => do
      let d ← delAll w.dead (destroy m)
      .ok { w with ms := w.ms.set i none, dead := d }

def prun : World → List POp → Res World
  | w, [] => .ok w
  | w, op :: ops => do
    let w ← pstep w op
    prun w ops

/-- A whole program: at its end all managers that are left are destroyed. -/
def program (ops : List POp) : Res World := do
  let w ← prun {} ops
  prun w ((List.range w.ms.length).map .destroy)

/-- The pointers that the program stores. -/
def handed : List POp → List Nat
  | [] => []
  | .call _ (.store p) :: ops => p :: handed ops
  | _ :: ops => handed ops

/-- Programs as they should be written: every stored command is a new object, and `undo` is not called (C64). -/
structure Proper (ops : List POp) : Prop where
  distinct : (handed ops).Nodup
  nonnull : 0 ∉ handed ops
  noUndo : ∀ i, .call i .undo ∉ ops

/-- At some time the program copies (or assigns from) a manager that holds commands. -/
def CopiesCommands (ops : List POp) : Prop :=
  ∃ pre op post w j m, ops = pre ++ op :: post ∧ (op = .copy j ∨ ∃ i, i ≠ j ∧ op = .assign i j ∧ w.mgr i ≠ none) ∧
    prun {} pre = .ok w ∧ w.mgr j = some m ∧ m.first ≠ []

/-- C174 (full statement): managers are values; whatever is copied, every stored command is deleted exactly once. -/
def C174_statement : Prop :=
  ∀ ops, Proper ops → ∃ w, program ops = .ok w ∧ w.dead.Perm w.taken

/-- The pointers that a manager will delete. -/
def firstOf : Option Mgr → List Nat
  | some m => m.first
  | none => []

def held (w : World) : List Nat := w.ms.flatMap firstOf

/-- What is true of every manager. -/
def MInv (m : Mgr) : Prop := m.maxElements = 1024 ∧ m.second = [] ∧ m.deleted = [] ∧ 0 ∉ m.first

def WInv (w : World) : Prop := (∀ m, some m ∈ w.ms → MInv m) ∧ w.dead.Nodup ∧ 0 ∉ w.dead

theorem delAll_spec (ps : List Nat) : ∀ (dead : List Nat), 0 ∉ ps → dead.Nodup →
    ((dead ++ ps).Nodup → delAll dead ps = .ok (dead ++ ps)) ∧ (¬ (dead ++ ps).Nodup → delAll dead ps = .ub) := by
  induction ps with
  | nil => intro dead _ hd; exact ⟨fun _ => by simp [delAll], fun h => absurd (by simpa using hd) h⟩
  | cons p ps ih =>
    intro dead h0 hd
    have hp : p ≠ 0 := fun e => h0 (by simp [e])
    have h0' : 0 ∉ ps := fun h => h0 (by simp [h])
    simp only [delAll, if_neg hp]
    by_cases hm : p ∈ dead
    · simp only [if_pos hm]
      refine ⟨fun h => ?_, fun _ => trivial⟩
      rw [List.nodup_append] at h
      exact absurd rfl (h.2.2 p hm p List.mem_cons_self)
    · simp only [if_neg hm]
      have hd' : (dead ++ [p]).Nodup := by
        rw [List.nodup_append]
        refine ⟨hd, by simp, ?_⟩
        intro a ha b hb
        simp only [List.mem_singleton] at hb
        subst hb
        exact fun e => hm (e ▸ ha)
      have := ih (dead ++ [p]) h0' hd'
      simpa [List.append_assoc] using this

theorem delAll_ok {dead ps d : List Nat} (h0 : 0 ∉ ps) (hd : dead.Nodup) (h : delAll dead ps = .ok d) :
    d = dead ++ ps ∧ d.Nodup := by
  have := delAll_spec ps dead h0 hd
  by_cases c : (dead ++ ps).Nodup
  · rw [this.1 c] at h
    have := Res.ok.inj h
    exact ⟨this.symm, this ▸ c⟩
  · rw [this.2 c] at h; cases h

theorem mgr_mem {w : World} {i : Nat} {m : Mgr} (h : w.mgr i = some m) : i < w.ms.length ∧ w.ms[i]? = some (some m) ∧ some m ∈ w.ms := by
  unfold World.mgr at h
  rw [Option.join_eq_some_iff] at h
  have h' := List.getElem?_eq_some_iff.1 h
  exact ⟨h'.1, h, List.mem_of_getElem? h⟩

theorem count_set (p : Nat) (x : Option Mgr) : ∀ (l : List (Option Mgr)) (i : Nat) (y : Option Mgr), l[i]? = some y →
    ((l.set i x).flatMap firstOf).count p + (firstOf y).count p = (l.flatMap firstOf).count p + (firstOf x).count p := by
  intro l
  induction l with
  | nil => intro i y h; simp at h
  | cons a l ih =>
    intro i y h
    cases i with
    | zero =>
      simp only [List.getElem?_cons_zero, Option.some.injEq] at h
      subst h
      simp only [List.set_cons_zero, List.flatMap_cons, List.count_append]
      omega
    | succ i =>
      simp only [List.getElem?_cons_succ] at h
      have := ih i y h
      simp only [List.set_cons_succ, List.flatMap_cons, List.count_append]
      omega

/-- A call other than `undo` on a manager: what it holds and what is handed over is held or deleted afterwards. -/
theorem step_mgr {m : Mgr} (h : MInv m) {op : Op} (hu : op ≠ .undo) (h0 : 0 ∉ stored [op]) :
    ∃ m' r, step false m op = .ok (m', r) ∧ MInv { m' with deleted := [] } ∧ 0 ∉ m'.deleted ∧
      m'.deleted ++ m'.first = m.first ++ stored [op] := by
  obtain ⟨m1, m2, m3, m4⟩ := m
  obtain ⟨h1, h2, h3, h4⟩ := h
  simp only at h1 h2 h3 h4
  subst h1 h2 h3
  cases op with
  | store p =>
    have hp : (0 : Nat) ∉ m2 ++ [p] := by
      simp only [List.mem_append, not_or]
      exact ⟨h4, by simpa [stored] using h0⟩
    refine ⟨_, _, rfl, ⟨rfl, by simp [clip], rfl, ?_⟩, ?_, ?_⟩
    · simp only [clip, List.length_nil, ne_eq, not_true_eq_false, if_false]
      exact fun h => hp (List.mem_of_mem_drop h)
    · simp only [clip, List.length_nil, ne_eq, not_true_eq_false, if_false, List.nil_append, List.take_nil, List.append_nil]
      exact fun h => hp (List.mem_of_mem_take h)
    · simp only [clip, List.length_nil, ne_eq, not_true_eq_false, if_false, List.nil_append, List.take_nil, List.append_nil,
        List.take_append_drop, stored]
  | undo => exact absurd rfl hu
  | redo => exact ⟨_, _, by simp [step, redo]; exact ⟨rfl, rfl⟩, ⟨rfl, rfl, rfl, h4⟩, by simp, by simp [stored]⟩
  | dispose =>
    exact ⟨_, _, by simp only [step]; rfl, ⟨rfl, rfl, rfl, h4⟩, by simp [disposeList], by simp [stored, disposeList]⟩

theorem mem_set {l : List (Option Mgr)} {i : Nat} {x y : Option Mgr} (h : y ∈ l.set i x) : y ∈ l ∨ y = x :=
  List.mem_or_eq_of_mem_set h

theorem winv_set {w : World} (h : WInv w) (i : Nat) (x : Option Mgr) (hx : ∀ m, x = some m → MInv m) :
    ∀ m, some m ∈ w.ms.set i x → MInv m := by
  intro m hm
  rcases mem_set hm with hm | hm
  · exact h.1 m hm
  · exact hx m hm.symm

/-- What a statement other than `undo` does, if it is defined. -/
theorem pstep_ok {w w' : World} (h : WInv w) (op : POp) (hu : ∀ i, op ≠ .call i .undo) (h0 : 0 ∉ handed [op])
    (e : pstep w op = .ok w') : WInv w' ∧
    (∀ p, w'.dead.count p + (held w').count p + w'.lost.count p + w.taken.count p =
      w.dead.count p + (held w).count p + w.lost.count p + w'.taken.count p +
        (match op with
         | .copy i => (firstOf (w.mgr i)).count p
         | .assign i j => if i = j ∨ w.mgr i = none then 0 else (firstOf (w.mgr j)).count p
         | _ => 0)) := by
  cases op with
  | new =>
    obtain rfl := Res.ok.inj e
    refine ⟨⟨?_, h.2⟩, fun p => ?_⟩
    · intro m hm
      rcases List.mem_append.1 hm with hm | hm
      · exact h.1 m hm
      · simp only [List.mem_singleton, Option.some.injEq] at hm
        subst hm
        exact ⟨rfl, rfl, rfl, by simp⟩
    · simp only [held, List.flatMap_append, List.flatMap_cons, List.flatMap_nil, firstOf, List.append_nil, Nat.add_zero]
  | call i c =>
    cases hm : w.mgr i with
    | none =>
      simp only [pstep, hm] at e
      obtain rfl := Res.ok.inj e
      exact ⟨h, fun p => by simp⟩
    | some m =>
      obtain ⟨hi, hg, hin⟩ := mgr_mem hm
      have hc : stored [c] = handed [.call i c] := by cases c <;> rfl
      obtain ⟨m', r, e1, hm', hd0, hcons⟩ := step_mgr (h.1 m hin) (fun hc => hu i (by rw [hc])) (hc ▸ h0)
      simp only [pstep, hm, e1, Res.bind_ok] at e
      rw [Res.bind_eq_ok] at e
      obtain ⟨d, e2, e⟩ := e
      obtain ⟨rfl, hdn⟩ := delAll_ok hd0 h.2.1 e2
      obtain rfl := Res.ok.inj e
      refine ⟨⟨winv_set h i _ (fun m hm => Option.some.inj hm ▸ hm'), hdn, ?_⟩, fun p => ?_⟩
      · simp only [List.mem_append, not_or]
        exact ⟨h.2.2, hd0⟩
      · have := count_set p (some { m' with deleted := [] }) w.ms i (some m) hg
        have h5 : (m'.deleted ++ m'.first).count p = (m.first ++ stored [c]).count p := by rw [hcons]
        simp only [List.count_append] at h5
        simp only [held, List.count_append, firstOf] at this ⊢
        omega
  | copy i =>
    cases hm : w.mgr i with
    | none =>
      simp only [pstep, hm] at e
      obtain rfl := Res.ok.inj e
      exact ⟨h, fun p => by simp [firstOf, hm]⟩
    | some m =>
      obtain ⟨hi, hg, hin⟩ := mgr_mem hm
      simp only [pstep, hm] at e
      obtain rfl := Res.ok.inj e
      refine ⟨⟨?_, h.2⟩, fun p => ?_⟩
      · intro m2 hm2
        rcases List.mem_append.1 hm2 with hm2 | hm2
        · exact h.1 m2 hm2
        · simp only [List.mem_singleton, Option.some.injEq] at hm2
          exact hm2 ▸ h.1 m hin
      · simp only [held, List.flatMap_append, List.flatMap_cons, List.flatMap_nil, firstOf, List.append_nil, List.count_append, hm]
        omega
  | assign i j =>
    cases hi : w.mgr i with
    | none =>
      simp only [pstep, hi] at e
      obtain rfl := Res.ok.inj e
      exact ⟨h, fun p => by simp [hi]⟩
    | some a =>
      cases hj : w.mgr j with
      | none =>
        simp only [pstep, hi, hj] at e
        obtain rfl := Res.ok.inj e
        exact ⟨h, fun p => by simp [hi, hj, firstOf]⟩
      | some b =>
        simp only [pstep, hi, hj] at e
        by_cases c : i = j
        · rw [if_pos c] at e
          obtain rfl := Res.ok.inj e
          exact ⟨h, fun p => by simp [c]⟩
        · rw [if_neg c] at e
          obtain rfl := Res.ok.inj e
          obtain ⟨-, hgi, hini⟩ := mgr_mem hi
          obtain ⟨-, -, hinj⟩ := mgr_mem hj
          refine ⟨⟨winv_set h i _ (fun m hm => Option.some.inj hm ▸ h.1 b hinj), h.2⟩, fun p => ?_⟩
          have := count_set p (some b) w.ms i (some a) hgi
          have h2 := (h.1 a hini).2.1
          simp only [held, List.count_append, firstOf, hi, hj, c, h2, List.count_nil] at this ⊢
          simp only [false_or, reduceCtorEq, if_false]
          omega
  | destroy i =>
    cases hm : w.mgr i with
    | none =>
      simp only [pstep, hm] at e
      obtain rfl := Res.ok.inj e
      exact ⟨h, fun p => by simp⟩
    | some m =>
      obtain ⟨hi, hg, hin⟩ := mgr_mem hm
      obtain ⟨g1, g2, g3, g4⟩ := h.1 m hin
      have hde : destroy m = m.first.reverse := by simp [destroy, disposeList, g2, g3]
      simp only [pstep, hm, hde] at e
      rw [Res.bind_eq_ok] at e
      obtain ⟨d, e2, e⟩ := e
      have hd0 : 0 ∉ m.first.reverse := by simpa using g4
      obtain ⟨rfl, hdn⟩ := delAll_ok hd0 h.2.1 e2
      obtain rfl := Res.ok.inj e
      refine ⟨⟨winv_set h i _ (fun m hm => by cases hm), hdn, ?_⟩, fun p => ?_⟩
      · simp only [List.mem_append, not_or]
        exact ⟨h.2.2, hd0⟩
      · have := count_set p none w.ms i (some m) hg
        simp only [held, List.count_append, firstOf, List.count_reverse, List.count_nil] at this ⊢
        omega

/-- A statement is defined if nothing is held twice. -/
theorem pstep_total {w : World} (h : WInv w) (op : POp) (hu : ∀ i, op ≠ .call i .undo) (h0 : 0 ∉ handed [op])
    (hn : ∀ p, w.dead.count p + (held w).count p + (handed [op]).count p ≤ 1) : ∃ w', pstep w op = .ok w' := by
  have hheld : ∀ i m, w.mgr i = some m → ∀ p, m.first.count p ≤ (held w).count p := by
    intro i m hm p
    obtain ⟨-, hg, -⟩ := mgr_mem hm
    have := count_set p none w.ms i (some m) hg
    simp only [firstOf, List.count_nil, held] at this ⊢
    omega
  cases op with
  | new => exact ⟨_, rfl⟩
  | call i c =>
    cases hm : w.mgr i with
    | none => exact ⟨w, by simp only [pstep, hm]⟩
    | some m =>
      obtain ⟨hi, hg, hin⟩ := mgr_mem hm
      have hc : stored [c] = handed [.call i c] := by cases c <;> rfl
      obtain ⟨m', r, e1, hm', hd0, hcons⟩ := step_mgr (h.1 m hin) (fun hc => hu i (by rw [hc])) (hc ▸ h0)
      have hnd : (w.dead ++ m'.deleted).Nodup := by
        rw [List.nodup_iff_count]
        intro p
        have h1 := hheld i m hm p
        have h2 := hn p
        have h5 : (m'.deleted ++ m'.first).count p = (m.first ++ stored [c]).count p := by rw [hcons]
        rw [← hc] at h2
        simp only [List.count_append] at h5 ⊢
        omega
      exact ⟨_, by simp only [pstep, hm, e1, Res.bind_ok, (delAll_spec _ _ hd0 h.2.1).1 hnd]; rfl⟩
  | copy i =>
    cases hm : w.mgr i with
    | none => exact ⟨w, by simp only [pstep, hm]⟩
    | some m => exact ⟨_, by simp only [pstep, hm]; rfl⟩
  | assign i j =>
    cases hi : w.mgr i with
    | none => exact ⟨w, by simp only [pstep, hi]⟩
    | some a =>
      cases hj : w.mgr j with
      | none => exact ⟨w, by simp only [pstep, hi, hj]⟩
      | some b =>
        by_cases c : i = j
        · exact ⟨w, by simp only [pstep, hi, hj, if_pos c]⟩
        · exact ⟨_, by simp only [pstep, hi, hj, if_neg c]; rfl⟩
  | destroy i =>
    cases hm : w.mgr i with
    | none => exact ⟨w, by simp only [pstep, hm]⟩
    | some m =>
      obtain ⟨hi, hg, hin⟩ := mgr_mem hm
      obtain ⟨g1, g2, g3, g4⟩ := h.1 m hin
      have hde : destroy m = m.first.reverse := by simp [destroy, disposeList, g2, g3]
      have hd0 : 0 ∉ m.first.reverse := by simpa using g4
      have hnd : (w.dead ++ m.first.reverse).Nodup := by
        rw [List.nodup_iff_count]
        intro p
        have h1 := hheld i m hm p
        have h2 := hn p
        simp only [List.count_append, List.count_reverse] at h2 ⊢
        omega
      exact ⟨_, by simp only [pstep, hm, hde, Res.bind_ok, (delAll_spec _ _ hd0 h.2.1).1 hnd]; rfl⟩

theorem delAll_not_exc (ps : List Nat) : ∀ (dead : List Nat) e, delAll dead ps ≠ .exc e := by
  induction ps with
  | nil => intro dead e h; cases h
  | cons p ps ih =>
    intro dead e
    simp only [delAll]
    by_cases c : p = 0
    · rw [if_pos c]; exact ih _ _
    · rw [if_neg c]
      by_cases d : p ∈ dead
      · rw [if_pos d]; intro h; cases h
      · rw [if_neg d]; exact ih _ _

theorem pstep_not_exc {w : World} (h : WInv w) (op : POp) (hu : ∀ i, op ≠ .call i .undo) (h0 : 0 ∉ handed [op]) :
    ∀ e, pstep w op ≠ .exc e := by
  intro x
  cases op with
  | new => intro e; cases e
  | call i c =>
    cases hm : w.mgr i with
    | none => simp only [pstep, hm]; intro e; cases e
    | some m =>
      obtain ⟨hi, hg, hin⟩ := mgr_mem hm
      have hc : stored [c] = handed [.call i c] := by cases c <;> rfl
      obtain ⟨m', r, e1, hm', hd0, hcons⟩ := step_mgr (h.1 m hin) (fun hc => hu i (by rw [hc])) (hc ▸ h0)
      simp only [pstep, hm, e1, Res.bind_ok]
      cases hd : delAll w.dead m'.deleted with
      | ok d => intro e; cases e
      | exc y => exact absurd hd (delAll_not_exc _ _ _)
      | ub => intro e; cases e
  | copy i =>
    cases hm : w.mgr i with
    | none => simp only [pstep, hm]; intro e; cases e
    | some m => simp only [pstep, hm]; intro e; cases e
  | assign i j =>
    cases hi : w.mgr i with
    | none => simp only [pstep, hi]; intro e; cases e
    | some a =>
      cases hj : w.mgr j with
      | none => simp only [pstep, hi, hj]; intro e; cases e
      | some b =>
        simp only [pstep, hi, hj]
        by_cases c : i = j
        · rw [if_pos c]; intro e; cases e
        · rw [if_neg c]; intro e; cases e
  | destroy i =>
    cases hm : w.mgr i with
    | none => simp only [pstep, hm]; intro e; cases e
    | some m =>
      simp only [pstep, hm]
      cases hd : delAll w.dead (destroy m) with
      | ok d => intro e; cases e
      | exc y => exact absurd hd (delAll_not_exc _ _ _)
      | ub => intro e; cases e

theorem handed_cons (op : POp) (ops : List POp) : handed (op :: ops) = handed [op] ++ handed ops := by
  cases op with
  | call i c => cases c <;> rfl
  | _ => rfl

theorem handed_append (a b : List POp) : handed (a ++ b) = handed a ++ handed b := by
  induction a with
  | nil => rfl
  | cons op a ih => rw [List.cons_append, handed_cons, ih, handed_cons op a, List.append_assoc]

theorem prun_append (a b : List POp) : ∀ w, prun w (a ++ b) = (prun w a).bind (fun w => prun w b) := by
  induction a with
  | nil => intro w; rfl
  | cons op a ih =>
    intro w
    simp only [List.cons_append, prun]
    cases pstep w op with
    | ok w1 => simp only [Res.bind_ok]; exact ih w1
    | exc e => rfl
    | ub => rfl

/-- The commands taken over are among those handed over. -/
theorem pstep_taken {w w' : World} (op : POp) (e : pstep w op = .ok w') :
    ∀ p, w.taken.count p ≤ w'.taken.count p ∧ w'.taken.count p ≤ w.taken.count p + (handed [op]).count p := by
  intro p
  cases op with
  | new => obtain rfl := Res.ok.inj e; simp
  | call i c =>
    cases hm : w.mgr i with
    | none => simp only [pstep, hm] at e; obtain rfl := Res.ok.inj e; omega
    | some m =>
      have hc : stored [c] = handed [.call i c] := by cases c <;> rfl
      simp only [pstep, hm] at e
      rw [Res.bind_eq_ok] at e
      obtain ⟨⟨m', r⟩, e1, e⟩ := e
      rw [Res.bind_eq_ok] at e
      obtain ⟨d, e2, e⟩ := e
      obtain rfl := Res.ok.inj e
      rw [← hc]
      simp only [List.count_append]
      omega
  | copy i =>
    cases hm : w.mgr i with
    | none => simp only [pstep, hm] at e; obtain rfl := Res.ok.inj e; omega
    | some m => simp only [pstep, hm] at e; obtain rfl := Res.ok.inj e; simp
  | assign i j =>
    cases hi : w.mgr i with
    | none => simp only [pstep, hi] at e; obtain rfl := Res.ok.inj e; omega
    | some a =>
      cases hj : w.mgr j with
      | none => simp only [pstep, hi, hj] at e; obtain rfl := Res.ok.inj e; omega
      | some b =>
        simp only [pstep, hi, hj] at e
        by_cases c : i = j
        · rw [if_pos c] at e; obtain rfl := Res.ok.inj e; omega
        · rw [if_neg c] at e; obtain rfl := Res.ok.inj e; simp
  | destroy i =>
    cases hm : w.mgr i with
    | none => simp only [pstep, hm] at e; obtain rfl := Res.ok.inj e; omega
    | some m =>
      simp only [pstep, hm] at e
      rw [Res.bind_eq_ok] at e
      obtain ⟨d, e2, e⟩ := e
      obtain rfl := Res.ok.inj e
      simp

/-- Only assignments lose commands. -/
theorem pstep_lost {w w' : World} (op : POp) (ha : ∀ i j, op ≠ .assign i j) (e : pstep w op = .ok w') : w'.lost = w.lost := by
  cases op with
  | new => obtain rfl := Res.ok.inj e; rfl
  | call i c =>
    cases hm : w.mgr i with
    | none => simp only [pstep, hm] at e; obtain rfl := Res.ok.inj e; rfl
    | some m =>
      simp only [pstep, hm] at e
      rw [Res.bind_eq_ok] at e
      obtain ⟨⟨m', r⟩, e1, e⟩ := e
      rw [Res.bind_eq_ok] at e
      obtain ⟨d, e2, e⟩ := e
      obtain rfl := Res.ok.inj e
      rfl
  | copy i =>
    cases hm : w.mgr i with
    | none => simp only [pstep, hm] at e; obtain rfl := Res.ok.inj e; rfl
    | some m => simp only [pstep, hm] at e; obtain rfl := Res.ok.inj e; rfl
  | assign i j => exact absurd rfl (ha i j)
  | destroy i =>
    cases hm : w.mgr i with
    | none => simp only [pstep, hm] at e; obtain rfl := Res.ok.inj e; rfl
    | some m =>
      simp only [pstep, hm] at e
      rw [Res.bind_eq_ok] at e
      obtain ⟨d, e2, e⟩ := e
      obtain rfl := Res.ok.inj e
      rfl

/-- `CopiesCommands` for a program that continues in `w`. -/
def CopiesFrom (w0 : World) (ops : List POp) : Prop :=
  ∃ pre op post w j m, ops = pre ++ op :: post ∧ (op = .copy j ∨ ∃ i, i ≠ j ∧ op = .assign i j ∧ w.mgr i ≠ none) ∧
    prun w0 pre = .ok w ∧ w.mgr j = some m ∧ m.first ≠ []

theorem run_good (ops : List POp) : ∀ w, WInv w → (∀ i, .call i .undo ∉ ops) → 0 ∉ handed ops →
    (∀ p, w.dead.count p + (held w).count p + (handed ops).count p ≤ 1) → ¬ CopiesFrom w ops →
    ∃ w', prun w ops = .ok w' ∧ WInv w' ∧ (∀ p, w'.dead.count p + (held w').count p ≤ 1) ∧
      (∀ p, w'.taken.count p ≤ w.taken.count p + (handed ops).count p) ∧
      (∀ p, w'.dead.count p + (held w').count p + w'.lost.count p + w.taken.count p =
        w.dead.count p + (held w).count p + w.lost.count p + w'.taken.count p) ∧
      ((∀ i j, .assign i j ∉ ops) → w'.lost = w.lost) := by
  induction ops with
  | nil =>
    intro w h _ _ hn _
    exact ⟨w, rfl, h, fun p => by have := hn p; omega, fun p => by omega, fun p => by omega, fun _ => rfl⟩
  | cons op ops ih =>
    intro w h hu h0 hn hc
    rw [handed_cons] at h0 hn
    have h01 : 0 ∉ handed [op] := fun hh => h0 (List.mem_append_left _ hh)
    have h02 : 0 ∉ handed ops := fun hh => h0 (List.mem_append_right _ hh)
    have hu1 : ∀ i, op ≠ .call i .undo := fun i e => hu i (by simp [e])
    obtain ⟨w1, e1⟩ := pstep_total h op hu1 h01 (fun p => by have := hn p; simp only [List.count_append] at this; omega)
    obtain ⟨h1, hcons⟩ := pstep_ok h op hu1 h01 e1
    have ht := pstep_taken op e1
    have hx : ∀ p, w1.dead.count p + (held w1).count p + w1.lost.count p + w.taken.count p =
        w.dead.count p + (held w).count p + w.lost.count p + w1.taken.count p := by
      intro p
      have := hcons p
      have hz : (match op with
         | .copy i => (firstOf (w.mgr i)).count p
         | .assign i j => if i = j ∨ w.mgr i = none then 0 else (firstOf (w.mgr j)).count p
         | _ => 0) = 0 := by
        have hfirst : ∀ j, (op = .copy j ∨ ∃ i, i ≠ j ∧ op = .assign i j ∧ w.mgr i ≠ none) → (firstOf (w.mgr j)).count p = 0 := by
          intro j hop
          cases hm : w.mgr j with
          | none => rfl
          | some m =>
            by_cases hf : m.first = []
            · simp [firstOf, hf]
            · exact absurd ⟨[], op, ops, w, j, m, rfl, hop, rfl, hm, hf⟩ hc
        cases op with
        | copy i => exact hfirst i (.inl rfl)
        | assign i j =>
          simp only
          by_cases c : i = j ∨ w.mgr i = none
          · rw [if_pos c]
          · rw [if_neg c]
            rw [not_or] at c
            exact hfirst j (.inr ⟨i, c.1, rfl, c.2⟩)
        | _ => rfl
      omega
    have hlost : ∀ p, w.lost.count p ≤ w1.lost.count p := by
      intro p
      cases op with
      | assign i j =>
        cases hi : w.mgr i with
        | none => simp only [pstep, hi] at e1; obtain rfl := Res.ok.inj e1; omega
        | some a =>
          cases hj : w.mgr j with
          | none => simp only [pstep, hi, hj] at e1; obtain rfl := Res.ok.inj e1; omega
          | some b =>
            simp only [pstep, hi, hj] at e1
            by_cases c : i = j
            · rw [if_pos c] at e1; obtain rfl := Res.ok.inj e1; omega
            · rw [if_neg c] at e1; obtain rfl := Res.ok.inj e1; simp only [List.count_append]; omega
      | _ => rw [pstep_lost _ (by intro i j hh; cases hh) e1]; exact Nat.le_refl _
    obtain ⟨w', e', h', g1, g2, g3, g4⟩ := ih w1 h1 (fun i hm => hu i (by simp [hm])) h02
      (fun p => by
        have a1 := hn p
        have a2 := hx p
        have a3 := ht p
        have a4 := hlost p
        simp only [List.count_append] at a1
        omega)
      (fun ⟨pre, op', post, w2, j, m, a1, a2, a3, a4, a5⟩ => hc ⟨op :: pre, op', post, w2, j, m, by rw [a1]; rfl, a2,
        by simp only [prun, e1, Res.bind_ok, a3], a4, a5⟩)
    refine ⟨w', by simp only [prun, e1, Res.bind_ok, e'], h', g1, fun p => ?_, fun p => ?_, fun ha => ?_⟩
    · have a1 := g2 p
      have a2 := ht p
      rw [handed_cons, List.count_append]
      omega
    · have a1 := g3 p
      have a2 := hx p
      omega
    · rw [g4 (fun i j hm => ha i j (by simp [hm])), pstep_lost op (fun i j hm => ha i j (by simp [hm])) e1]

/-- The end of a program: afterwards nothing is held. -/
theorem destroy_all (is : List Nat) : ∀ w w', prun w (is.map .destroy) = .ok w' → w'.ms.length = w.ms.length ∧
    ∀ i, (i ∈ is ∨ w.mgr i = none) → w'.mgr i = none := by
  induction is with
  | nil =>
    intro w w' e
    obtain rfl := Res.ok.inj e
    exact ⟨rfl, fun i h => h.elim (fun h => by cases h) id⟩
  | cons k is ih =>
    intro w w' e
    simp only [List.map_cons, prun] at e
    rw [Res.bind_eq_ok] at e
    obtain ⟨w1, e1, e⟩ := e
    have hk : w1.ms.length = w.ms.length ∧ ∀ i, (i = k ∨ w.mgr i = none) → w1.mgr i = none := by
      cases hm : w.mgr k with
      | none =>
        simp only [pstep, hm] at e1
        obtain rfl := Res.ok.inj e1
        exact ⟨rfl, fun i h => h.elim (fun h => h ▸ hm) id⟩
      | some m =>
        simp only [pstep, hm] at e1
        rw [Res.bind_eq_ok] at e1
        obtain ⟨d, e2, e1⟩ := e1
        obtain rfl := Res.ok.inj e1
        refine ⟨by simp, fun i h => ?_⟩
        have hkl := (mgr_mem hm).1
        simp only [World.mgr, List.getElem?_set]
        by_cases c : k = i
        · subst c; simp [hkl]
        · rw [if_neg c]
          rcases h with h | h
          · exact absurd h.symm c
          · exact h
    obtain ⟨a1, a2⟩ := ih w1 w' e
    refine ⟨a1.trans hk.1, fun i h => a2 i ?_⟩
    rcases h with h | h
    · rcases List.mem_cons.1 h with h | h
      · exact .inr (hk.2 i (.inl h))
      · exact .inl h
    · exact .inr (hk.2 i (.inr h))

theorem held_nil {w w' : World} (e : prun w ((List.range w.ms.length).map .destroy) = .ok w') : held w' = [] := by
  obtain ⟨h1, h2⟩ := destroy_all _ _ _ e
  unfold held
  rw [List.flatMap_eq_nil_iff]
  intro x hx
  obtain ⟨i, hi, rfl⟩ := List.mem_iff_getElem.1 hx
  have := h2 i (.inl (by rw [List.mem_range, ← h1]; exact hi))
  unfold World.mgr at this
  rw [List.getElem?_eq_getElem hi] at this
  cases hx : w'.ms[i] with
  | none => rfl
  | some m => rw [hx] at this; cases this

theorem handed_destroy (is : List Nat) : handed (is.map .destroy) = [] := by
  induction is with
  | nil => rfl
  | cons i is ih => exact ih

theorem winv_new : WInv {} := ⟨(fun m h => by cases h), List.nodup_nil, by simp⟩

/-- **C174, partial.** A program that copies managers only while they are empty is defined.  At its end each stored command was
deleted exactly once, except those of managers that were assigned over, which are never deleted; without assignments there are
none.  Missing: copies of managers that hold commands (`C174_exact`). -/
theorem C174_partial (ops : List POp) (hp : Proper ops) (hc : ¬ CopiesCommands ops) :
    ∃ w, program ops = .ok w ∧ (w.dead ++ w.lost).Perm w.taken ∧ (w.dead ++ w.lost).Nodup ∧
      ((∀ i j, .assign i j ∉ ops) → w.dead.Perm w.taken) := by
  obtain ⟨w1, e1, i1, a1, a2, a3, a4⟩ := run_good ops {} winv_new hp.noUndo hp.nonnull
    (fun p => by simpa [held] using (List.nodup_iff_count.1 hp.distinct) p) hc
  obtain ⟨w2, e2, i2, b1, b2, b3, b4⟩ := run_good ((List.range w1.ms.length).map .destroy) w1 i1 (by simp) (by simp [handed_destroy])
    (fun p => by simpa [handed_destroy] using a1 p)
    (by
      rintro ⟨pre, op, post, w, j, m, h1, h2, -⟩
      have : op ∈ (List.range w1.ms.length).map POp.destroy := by rw [h1]; simp
      rw [List.mem_map] at this
      obtain ⟨k, -, rfl⟩ := this
      rcases h2 with h2 | ⟨i, -, h2, -⟩ <;> cases h2)
  have hh := held_nil e2
  have hcount : ∀ p, w2.dead.count p + w2.lost.count p = w2.taken.count p := by
    intro p
    have c1 := a3 p
    have c2 := b3 p
    rw [hh] at c2
    simp only [List.count_nil, show held {} = [] from rfl, Nat.zero_add, Nat.add_zero] at c1 c2
    omega
  have hperm : (w2.dead ++ w2.lost).Perm w2.taken := by
    rw [List.perm_iff_count]
    intro p
    rw [List.count_append]
    exact hcount p
  refine ⟨w2, by simp only [program, e1, Res.bind_ok, e2], hperm, ?_, fun ha => ?_⟩
  · rw [hperm.nodup_iff, List.nodup_iff_count]
    intro p
    have c1 := a2 p
    have c2 := b2 p
    have c3 := (List.nodup_iff_count.1 hp.distinct) p
    rw [handed_destroy] at c2
    simp only [List.count_nil, Nat.zero_add, Nat.add_zero] at c1 c2
    omega
  · have : w2.lost = [] := by
      rw [b4 (by simp), a4 ha]
    rw [this, List.append_nil] at hperm
    exact hperm

/-- In a program without assignments, what is held or deleted remains so. -/
theorem run_mono (ops : List POp) : ∀ w w', WInv w → (∀ i, .call i .undo ∉ ops) → 0 ∉ handed ops → (∀ i j, .assign i j ∉ ops) →
    prun w ops = .ok w' → WInv w' ∧ ∀ p, w.dead.count p + (held w).count p ≤ w'.dead.count p + (held w').count p := by
  induction ops with
  | nil =>
    intro w w' h _ _ _ e
    obtain rfl := Res.ok.inj e
    exact ⟨h, fun p => Nat.le_refl _⟩
  | cons op ops ih =>
    intro w w' h hu h0 ha e
    rw [handed_cons] at h0
    simp only [prun] at e
    rw [Res.bind_eq_ok] at e
    obtain ⟨w1, e1, e⟩ := e
    obtain ⟨h1, hcons⟩ := pstep_ok h op (fun i e => hu i (by simp [e])) (fun hh => h0 (List.mem_append_left _ hh)) e1
    obtain ⟨h', g⟩ := ih w1 w' h1 (fun i hm => hu i (by simp [hm])) (fun hh => h0 (List.mem_append_right _ hh))
      (fun i j hm => ha i j (by simp [hm])) e
    refine ⟨h', fun p => Nat.le_trans ?_ (g p)⟩
    have a1 := hcons p
    have a2 := pstep_taken op e1 p
    have a3 := pstep_lost op (fun i j hm => ha i j (by simp [hm])) e1
    rw [a3] at a1
    omega

theorem run_not_exc (ops : List POp) : ∀ w, WInv w → (∀ i, .call i .undo ∉ ops) → 0 ∉ handed ops → ∀ x, prun w ops ≠ .exc x := by
  induction ops with
  | nil => intro w _ _ _ x e; cases e
  | cons op ops ih =>
    intro w h hu h0 x
    rw [handed_cons] at h0
    simp only [prun]
    have hu1 : ∀ i, op ≠ .call i .undo := fun i e => hu i (by simp [e])
    have h01 : 0 ∉ handed [op] := fun hh => h0 (List.mem_append_left _ hh)
    cases e1 : pstep w op with
    | ok w1 =>
      simp only [Res.bind_ok]
      exact ih w1 (pstep_ok h op hu1 h01 e1).1 (fun i hm => hu i (by simp [hm])) (fun hh => h0 (List.mem_append_right _ hh)) x
    | exc y => exact absurd e1 (pstep_not_exc h op hu1 h01 y)
    | ub => intro e; cases e

/-- **C174, exactly, without assignments:** a program is UB if and only if at some time it copies a manager that holds a
command. -/
theorem C174_exact (ops : List POp) (hp : Proper ops) (ha : ∀ i j, .assign i j ∉ ops) :
    program ops = .ub ↔ CopiesCommands ops := by
  constructor
  · intro e
    refine Classical.byContradiction fun hc => ?_
    obtain ⟨w, e', -⟩ := C174_partial ops hp hc
    rw [e] at e'
    cases e'
  · rintro ⟨pre, op, post, w, j, m, rfl, hop, e, hm, hf⟩
    have hop : op = .copy j := by
      rcases hop with h | ⟨i, -, rfl, -⟩
      · exact h
      · exact absurd (by simp) (ha i j)
    subst hop
    have hu1 : ∀ i, .call i .undo ∉ pre := fun i h => hp.noUndo i (by simp [h])
    have hu2 : ∀ i, .call i .undo ∉ post := fun i h => hp.noUndo i (by simp [h])
    have hn := hp.nonnull
    rw [handed_append, handed_cons] at hn
    have hn1 : 0 ∉ handed pre := fun h => hn (by simp [h])
    have hn2 : 0 ∉ handed post := fun h => hn (by simp [h])
    obtain ⟨i1, -⟩ := run_mono pre {} w winv_new hu1 hn1 (fun i j h => ha i j (by simp [h])) e
    obtain ⟨p, hpm⟩ := List.exists_mem_of_ne_nil _ hf
    obtain ⟨-, hg, hin⟩ := mgr_mem hm
    have hcp : pstep w (.copy j) = .ok { w with ms := w.ms ++ [some m] } := by simp only [pstep, hm]
    obtain ⟨i2, -⟩ := pstep_ok i1 (.copy j) (by intro i h; cases h) (by simp [handed]) hcp
    have hrun : prun {} (pre ++ .copy j :: post) = prun { w with ms := w.ms ++ [some m] } post := by
      rw [prun_append, e]
      show prun w (.copy j :: post) = _
      simp only [prun, hcp, Res.bind_ok]
    unfold program
    rw [hrun]
    cases e2 : prun { w with ms := w.ms ++ [some m] } post with
    | exc x => exact absurd e2 (run_not_exc post _ i2 hu2 hn2 x)
    | ub => rfl
    | ok w2 =>
      simp only [Res.bind_ok]
      obtain ⟨i3, g3⟩ := run_mono post _ w2 i2 hu2 hn2 (fun i j h => ha i j (by simp [h])) e2
      cases e3 : prun w2 ((List.range w2.ms.length).map .destroy) with
      | exc x => exact absurd e3 (run_not_exc _ _ i3 (by simp) (by simp [handed_destroy]) x)
      | ub => rfl
      | ok w3 =>
        exfalso
        obtain ⟨i4, g4⟩ := run_mono _ w2 w3 i3 (by simp) (by simp [handed_destroy]) (by simp) e3
        have c1 := g3 p
        have c2 := g4 p
        have c3 := (List.nodup_iff_count.1 i4.2.1) p
        rw [held_nil e3] at c2
        have c4 : 0 < m.first.count p := List.count_pos_iff.2 hpm
        have c5 := count_set p none w.ms j (some m) hg
        simp only [held, List.flatMap_append, List.flatMap_cons, List.flatMap_nil, List.append_nil, firstOf, List.count_append,
          List.count_nil] at c1 c2 c5
        omega

/-- **C174, counterexample:** the claim fails: a manager with one command is copied, and both delete it. -/
theorem C174_counterexample : ¬ C174_statement := by
  intro h
  obtain ⟨w, e, -⟩ := h [.new, .call 0 (.store 7), .copy 0]
    ⟨by decide, by decide, by intro i hm; simp at hm⟩
  rw [show program [.new, .call 0 (.store 7), .copy 0] = .ub by decide] at e
  cases e

/-- **C174, counterexample:** the claim also fails for assignments from empty managers: the command that the target held is
never deleted. -/
theorem C174_counterexample_leak :
    program [.new, .new, .call 0 (.store 7), .assign 0 1] =
      .ok { ms := [none, none], dead := [], taken := [7], lost := [7] } := by decide

/-- Two managers, one of them a copy of the other made before anything was stored. -/
example : program [.new, .copy 0, .call 0 (.store 7), .call 1 (.store 8), .call 1 (.store 9), .call 1 .redo, .destroy 0] =
    .ok { ms := [none, none], dead := [7, 9, 8], taken := [7, 8, 9] } := by decide

/-- A copy of a manager with commands is harmless if it is assigned over in time. -/
example : program [.new, .new, .call 0 (.store 7), .copy 0, .assign 2 1] =
    .ok { ms := [none, none, none], dead := [7], taken := [7], lost := [7] } := by decide

end Verif.Command
