import Verif.Command.Reentrant
import Mathlib.Algebra.BigOperators.Group.List.Basic

/-! C194: commands whose destructors use the manager. -/

namespace Verif.Command

/-! ### Termination -/

/-- Steps for a call, if the deletion of the command `p` takes `w p` steps. -/
def opCost (w : Nat → Nat) : Op → Nat
  | .store p => w p + 5
  | _ => 3

def frameCost (w : Nat → Nat) : Frame → Nat
  | .acts ops => 1 + (ops.map (opCost w)).sum
  | .push p => w p + 1
  | _ => 1

def cost (w : Nat → Nat) (s : St) : Nat := (s.m.first.map w).sum + (s.stack.map (frameCost w)).sum

/-- A bound on the steps of a deletion, for `n` levels of destructors. -/
def level (eff : Nat → List Op) : Nat → Nat → Nat
  | 0, _ => 2
  | n + 1, p => 2 + ((eff p).map (opCost (level eff n))).sum

theorem sum_map_le {v w : Op → Nat} (l : List Op) (h : ∀ o ∈ l, v o ≤ w o) : (l.map v).sum ≤ (l.map w).sum := by
  induction l with
  | nil => simp
  | cons o l ih =>
    simp only [List.map_cons, List.sum_cons]
    exact Nat.add_le_add (h o (by simp)) (ih (fun o ho => h o (List.mem_cons_of_mem _ ho)))

theorem opCost_mono {v w : Nat → Nat} (h : ∀ p, v p ≤ w p) (o : Op) : opCost v o ≤ opCost w o := by
  cases o with
  | store p => exact Nat.add_le_add_right (h p) 5
  | undo => exact Nat.le_refl _
  | redo => exact Nat.le_refl _
  | dispose => exact Nat.le_refl _

theorem level_mono (eff : Nat → List Op) (n : Nat) : ∀ p, level eff n p ≤ level eff (n + 1) p := by
  induction n with
  | zero => intro p; simp [level]
  | succ n ih =>
    intro p
    refine Nat.add_le_add_left ?_ 2
    exact sum_map_le _ (fun o _ => opCost_mono ih o)

theorem level_le (eff : Nat → List Op) {m n : Nat} (h : m ≤ n) (p : Nat) : level eff m p ≤ level eff n p := by
  induction h with
  | refl => exact Nat.le_refl _
  | step _ ih => exact Nat.le_trans ih (level_mono eff _ p)

/-- If destructors store only commands of lower rank, deletions are bounded. -/
theorem weight_of_rank {eff : Nat → List Op} (rank : Nat → Nat) (h : ∀ p q, .store q ∈ eff p → rank q < rank p) :
    ∃ w : Nat → Nat, ∀ p, 2 + ((eff p).map (opCost w)).sum ≤ w p := by
  refine ⟨fun p => level eff (rank p + 1) p, ?_⟩
  intro p
  simp only [level]
  refine Nat.add_le_add_left (sum_map_le _ (fun o ho => ?_)) 2
  cases o with
  | store q =>
    have := h p q ho
    exact Nat.add_le_add_right (level_le eff (m := rank q + 1) (n := rank p) (by omega) q) 5
  | undo => exact Nat.le_refl _
  | redo => exact Nat.le_refl _
  | dispose => exact Nat.le_refl _

theorem cost_step {eff : Nat → List Op} {w : Nat → Nat} (hw : ∀ p, 2 + ((eff p).map (opCost w)).sum ≤ w p) {s v : St}
    (h2 : s.m.second = []) (hn : next eff s = .ok (some v)) (hu : ∀ ops, .acts ops ∈ s.stack → .undo ∉ ops) : cost w v < cost w s := by
  obtain ⟨⟨mx, first, second, deleted⟩, stack, handed⟩ := s
  simp only at h2
  subst h2
  cases stack with
  | nil => simp [next] at hn
  | cons f k =>
    cases f with
    | disposeSecond =>
      simp only [next, List.length_nil, ne_eq, not_true_eq_false, if_false] at hn
      cases hn
      simp [cost, frameCost]
    | clipSecond =>
      simp only [next] at hn
      cases hn
      simp [cost, frameCost]
    | push p =>
      simp only [next] at hn
      cases hn
      simp only [cost, frameCost, List.map_append, List.map_cons, List.map_nil, List.sum_append, List.sum_cons, List.sum_nil]
      omega
    | acts l =>
      cases l with
      | nil =>
        simp only [next] at hn
        cases hn
        simp [cost, frameCost]
      | cons o os =>
        cases o with
        | undo => exact (hu (.undo :: os) (by simp) (by simp)).elim
        | redo =>
          simp only [next, enter, List.length_nil, ne_eq, not_true_eq_false, if_false, Res.bind_ok] at hn
          cases hn
          simp only [cost, frameCost, opCost, List.map_cons, List.sum_cons]
          omega
        | dispose =>
          simp only [next, enter, Res.bind_ok] at hn
          cases hn
          simp only [cost, frameCost, opCost, List.map_cons, List.sum_cons]
          omega
        | store p =>
          simp only [next, enter, List.length_nil, ne_eq, not_true_eq_false, if_false, Res.bind_ok] at hn
          cases hn
          simp only [cost, frameCost, opCost, List.map_cons, List.sum_cons, List.nil_append, List.cons_append]
          omega
    | clipFirst =>
      cases first with
      | nil =>
        simp only [next] at hn
        cases hn
        simp [cost, frameCost]
      | cons x rest =>
        simp only [next, deleteCmd] at hn
        split at hn
        · obtain ⟨t, ht, hn⟩ := Res.bind_eq_ok.1 hn
          cases hn
          have := hw x
          split at ht
          · cases ht
            simp only [cost, List.map_cons, List.sum_cons]
            omega
          · split at ht
            · cases ht
            · cases ht
              simp only [cost, frameCost, List.map_cons, List.sum_cons]
              omega
        · cases hn
          simp [cost, frameCost]
    | disposeFirst =>
      rcases List.eq_nil_or_concat first with rfl | ⟨l, x, rfl⟩
      · simp only [next, List.length_nil, ne_eq, not_true_eq_false, if_false] at hn
        cases hn
        simp [cost, frameCost]
      · rw [List.concat_eq_append] at hn ⊢
        have hne : (l ++ [x]).length ≠ 0 := by simp
        simp only [next, if_pos hne, popBack_append, deleteCmd, Res.bind_ok] at hn
        obtain ⟨t, ht, hn⟩ := Res.bind_eq_ok.1 hn
        cases hn
        have := hw x
        split at ht
        · cases ht
          simp only [cost, List.map_cons, List.map_append, List.sum_append, List.sum_cons, List.map_nil, List.sum_nil]
          omega
        · split at ht
          · cases ht
          · cases ht
            simp only [cost, frameCost, List.map_cons, List.map_append, List.sum_append, List.sum_cons, List.map_nil, List.sum_nil]
            omega

theorem Reach.head {eff : Nat → List Op} {s t u : St} (h : next eff s = .ok (some t)) (hr : Reach eff t u) : Reach eff s u := by
  induction hr with
  | refl => exact .tail (.refl s) h
  | tail _ hn ih => exact .tail ih hn

/-- The frames have no `undo`. -/
theorem RInv.noUndo {s : St} (h : RInv s) : ∀ ops, .acts ops ∈ s.stack → .undo ∉ ops := by
  intro ops hm
  rcases h.shape with ⟨u, hu, hpl⟩ | ⟨hst, _⟩ | ⟨hst, _⟩
  · rw [hu] at hm
    rcases List.mem_append.1 hm with hm | hm
    · exact hpl _ hm
    · simp at hm
  · rw [hst] at hm; simp at hm
  · rw [hst] at hm; simp at hm

/-- Every execution ends, unless a command is handed over twice on the way. -/
theorem RInv.ends {eff : Nat → List Op} (he : ∀ p, .undo ∉ eff p) {w : Nat → Nat} (hw : ∀ p, 2 + ((eff p).map (opCost w)).sum ≤ w p) (n : Nat) :
    ∀ s, cost w s ≤ n → RInv s → (∀ t, Reach eff s t → t.handed.Nodup ∧ 0 ∉ t.handed) →
      ∃ t, Reach eff s t ∧ next eff t = .ok none := by
  induction n with
  | zero =>
    intro s hc h hd
    cases hn : next eff s with
    | exc e => exact absurd hn ((RInv.step he h).2.2.2 e)
    | ub => exact absurd hn ((RInv.step he h).2.1 (hd s (.refl s)).1)
    | ok r =>
      cases r with
      | none => exact ⟨s, .refl s, hn⟩
      | some v =>
        have := cost_step hw h.second hn h.noUndo
        omega
  | succ n ih =>
    intro s hc h hd
    cases hn : next eff s with
    | exc e => exact absurd hn ((RInv.step he h).2.2.2 e)
    | ub => exact absurd hn ((RInv.step he h).2.1 (hd s (.refl s)).1)
    | ok r =>
      cases r with
      | none => exact ⟨s, .refl s, hn⟩
      | some v =>
        have hlt := cost_step hw h.second hn h.noUndo
        have hv : RInv v := (RInv.step he h).1 v hn (hd v (.tail (.refl s) hn)).2
        obtain ⟨t, ht, hnt⟩ := ih v (by omega) hv (fun t ht => hd t (.head hn ht))
        exact ⟨t, .head hn ht, hnt⟩

/-! ### C194 -/

/-- **C194 in full**: whatever the destructors of the commands call, as long as no command is handed to `store` twice, a program that uses a manager and
destroys it is defined and ends, and every command that `store` has got was then deleted exactly once. -/
def C194_statement : Prop :=
  ∀ (eff : Nat → List Op) (ops : List Op), (∀ t, Reach eff (start ops) t → t.handed.Nodup ∧ 0 ∉ t.handed) →
    (∀ t, Reach eff (start ops) t → next eff t ≠ .ub) ∧ ∃ t, Reach eff (start ops) t ∧ next eff t = .ok none ∧ t.m.deleted.Perm t.handed

/-- **C194**, safety: if neither the program nor the destructors call `undo`, nothing is undefined and no command is deleted twice, and if the program ends,
every command was deleted exactly once.  Missing: `undo`, for which the claim is false (`C194_counterexample`), and that the program ends
(`C194_ends_partial`, `C194_counterexample_endless`). -/
theorem C194_once_partial (eff : Nat → List Op) (ops : List Op) (he : ∀ p, .undo ∉ eff p) (ho : .undo ∉ ops) (t : St) (hr : Reach eff (start ops) t)
    (hd : t.handed.Nodup) (h0 : 0 ∉ t.handed) :
    next eff t ≠ .ub ∧ t.m.deleted.Nodup ∧ (∀ p ∈ t.m.first, p ∉ t.m.deleted) ∧ (next eff t = .ok none → t.m.deleted.Perm t.handed) := by
  have h := RInv.reach he hr (RInv.start ho) h0
  have hs := RInv.step he h
  have hn := h.perm.nodup_iff.2 hd
  rw [List.nodup_append] at hn
  exact ⟨hs.2.1 hd, hn.1, fun p hp hp' => hn.2.2 p hp' p hp rfl, hs.2.2.1⟩

/-- **C194**, the bound: while the program makes calls the manager keeps the newest 1024 commands (fewer only if it got fewer) between any two calls, and the older
ones were deleted oldest first, also those that destructors have stored. -/
theorem C194_history_partial (eff : Nat → List Op) (ops rest : List Op) (he : ∀ p, .undo ∉ eff p) (ho : .undo ∉ ops) (t : St)
    (hr : Reach eff { stack := [.acts ops] } t) (h0 : 0 ∉ t.handed) (hb : t.stack = [.acts rest]) :
    t.m.first = t.handed.drop (t.handed.length - 1024) ∧ t.m.deleted = t.handed.take (t.handed.length - 1024) := by
  have h : CInv t := CInv.reach he hr ⟨rfl, rfl, rfl, by simp, by simpa [Frame.Plain] using ho, Or.inl ⟨by simp, ops, Or.inl rfl⟩⟩ h0
  have hl : t.m.first.length ≤ 1024 := by
    rcases h.shape with ⟨hl, _⟩ | ⟨hl, _⟩ | ⟨u, r, hu⟩
    · exact hl
    · exact hl
    · rw [hb] at hu
      have := congrArg List.length hu
      simp at this
  have hlen : t.handed.length - 1024 = t.m.deleted.length := by
    rw [h.split, List.length_append]
    by_cases hd : t.m.deleted = []
    · rw [hd]; simp only [List.length_nil]; omega
    · have := h.full hd; omega
  rw [hlen, h.split]
  simp

/-- **C194**, termination: if the destructors store only commands of a lower rank, the program ends. -/
theorem C194_ends_partial (eff : Nat → List Op) (ops : List Op) (rank : Nat → Nat) (hk : ∀ p q, .store q ∈ eff p → rank q < rank p)
    (he : ∀ p, .undo ∉ eff p) (ho : .undo ∉ ops) (hd : ∀ t, Reach eff (start ops) t → t.handed.Nodup ∧ 0 ∉ t.handed) :
    (∀ t, Reach eff (start ops) t → next eff t ≠ .ub) ∧ ∃ t, Reach eff (start ops) t ∧ next eff t = .ok none ∧ t.m.deleted.Perm t.handed := by
  refine ⟨fun t hr => (C194_once_partial eff ops he ho t hr (hd t hr).1 (hd t hr).2).1, ?_⟩
  obtain ⟨w, hw⟩ := weight_of_rank rank hk
  obtain ⟨t, ht, hn⟩ := RInv.ends he hw _ (start ops) (Nat.le_refl _) (RInv.start ho) hd
  exact ⟨t, ht, hn, (C194_once_partial eff ops he ho t ht (hd t ht).1 (hd t ht).2).2.2.2 hn⟩

/-- The states of a program whose commands call `undo` in their destructors. -/
def undoTrace : List St :=
  [start [.store 1, .store 2],
        ⟨{}, [.push 1, .clipFirst, .clipSecond, .acts [.store 2], .disposeFirst, .disposeSecond], []⟩,
        ⟨{ first := [1] }, [.clipFirst, .clipSecond, .acts [.store 2], .disposeFirst, .disposeSecond], [1]⟩,
        ⟨{ first := [1] }, [.clipSecond, .acts [.store 2], .disposeFirst, .disposeSecond], [1]⟩,
        ⟨{ first := [1] }, [.acts [.store 2], .disposeFirst, .disposeSecond], [1]⟩,
        ⟨{ first := [1] }, [.push 2, .clipFirst, .clipSecond, .acts [], .disposeFirst, .disposeSecond], [1]⟩,
        ⟨{ first := [1, 2] }, [.clipFirst, .clipSecond, .acts [], .disposeFirst, .disposeSecond], [1, 2]⟩,
        ⟨{ first := [1, 2] }, [.clipSecond, .acts [], .disposeFirst, .disposeSecond], [1, 2]⟩,
        ⟨{ first := [1, 2] }, [.acts [], .disposeFirst, .disposeSecond], [1, 2]⟩,
        ⟨{ first := [1, 2] }, [.disposeFirst, .disposeSecond], [1, 2]⟩,
        ⟨{ first := [1], deleted := [2] }, [.acts [.undo], .disposeFirst, .disposeSecond], [1, 2]⟩]

/-- C194 fails for a destructor that calls `undo` while the manager holds another command: `_second` is empty and `back()` is undefined. -/
theorem C194_counterexample : ¬ C194_statement := by
  intro h
  have hd : ∀ t, Reach (fun _ => [.undo]) (start [.store 1, .store 2]) t →
      t ∈ undoTrace := by
    intro t ht
    induction ht with
    | refl => simp [undoTrace]
    | tail _ hn ih =>
      simp only [undoTrace, List.mem_cons, List.not_mem_nil, or_false] at ih
      rcases ih with rfl | rfl | rfl | rfl | rfl | rfl | rfl | rfl | rfl | rfl | rfl
      all_goals first
        | (have e := hn.symm.trans (show _ = Res.ok (some _) from rfl)
           injection e with e
           injection e with e
           subst e
           decide +kernel)
        | (exfalso; revert hn; simp [next, enter, popBack])
  have h1 := h (fun _ => [.undo]) [.store 1, .store 2] (by
    intro t ht
    have h2 : ∀ t ∈ undoTrace, t.handed.Nodup ∧ 0 ∉ t.handed := by decide +kernel
    exact h2 t (hd t ht))
  refine h1.1 ⟨{ first := [1], deleted := [2] }, [.acts [.undo], .disposeFirst, .disposeSecond], [1, 2]⟩ ?_ rfl
  refine .head (t := ⟨{}, [.push 1, .clipFirst, .clipSecond, .acts [.store 2], .disposeFirst, .disposeSecond], []⟩) rfl ?_
  refine .head (t := ⟨{ first := [1] }, [.clipFirst, .clipSecond, .acts [.store 2], .disposeFirst, .disposeSecond], [1]⟩) rfl ?_
  refine .head (t := ⟨{ first := [1] }, [.clipSecond, .acts [.store 2], .disposeFirst, .disposeSecond], [1]⟩) rfl ?_
  refine .head (t := ⟨{ first := [1] }, [.acts [.store 2], .disposeFirst, .disposeSecond], [1]⟩) rfl ?_
  refine .head (t := ⟨{ first := [1] }, [.push 2, .clipFirst, .clipSecond, .acts [], .disposeFirst, .disposeSecond], [1]⟩) rfl ?_
  refine .head (t := ⟨{ first := [1, 2] }, [.clipFirst, .clipSecond, .acts [], .disposeFirst, .disposeSecond], [1, 2]⟩) rfl ?_
  refine .head (t := ⟨{ first := [1, 2] }, [.clipSecond, .acts [], .disposeFirst, .disposeSecond], [1, 2]⟩) rfl ?_
  refine .head (t := ⟨{ first := [1, 2] }, [.acts [], .disposeFirst, .disposeSecond], [1, 2]⟩) rfl ?_
  refine .head (t := ⟨{ first := [1, 2] }, [.disposeFirst, .disposeSecond], [1, 2]⟩) rfl ?_
  exact .head rfl (.refl _)

/-- C194 fails for destructors that store new commands for ever: the destructor of the manager does not end. -/
theorem C194_counterexample_endless (t : St) (hr : Reach (fun p => [.store (p + 1)]) (start [.store 1]) t) :
    next (fun p => [.store (p + 1)]) t ≠ .ok none := by
  have inv : ∃ n d h, 0 < n ∧ (t = ⟨⟨1024, [], [], d⟩, [.acts [.store n], .disposeFirst, .disposeSecond], h⟩ ∨
      t = ⟨⟨1024, [], [], d⟩, [.push n, .clipFirst, .clipSecond, .acts [], .disposeFirst, .disposeSecond], h⟩ ∨
      t = ⟨⟨1024, [n], [], d⟩, [.clipFirst, .clipSecond, .acts [], .disposeFirst, .disposeSecond], h⟩ ∨
      t = ⟨⟨1024, [n], [], d⟩, [.clipSecond, .acts [], .disposeFirst, .disposeSecond], h⟩ ∨
      t = ⟨⟨1024, [n], [], d⟩, [.acts [], .disposeFirst, .disposeSecond], h⟩ ∨
      t = ⟨⟨1024, [n], [], d⟩, [.disposeFirst, .disposeSecond], h⟩) := by
    induction hr with
    | refl => exact ⟨1, [], [], by omega, Or.inl rfl⟩
    | tail _ hn ih =>
      obtain ⟨n, d, h, h0, rfl | rfl | rfl | rfl | rfl | rfl⟩ := ih
      · cases hn; exact ⟨n, d, h, h0, Or.inr (Or.inl rfl)⟩
      · cases hn; exact ⟨n, d, h ++ [n], h0, Or.inr (Or.inr (Or.inl rfl))⟩
      · cases hn; exact ⟨n, d, h, h0, Or.inr (Or.inr (Or.inr (Or.inl rfl)))⟩
      · cases hn; exact ⟨n, d, h, h0, Or.inr (Or.inr (Or.inr (Or.inr (Or.inl rfl))))⟩
      · cases hn; exact ⟨n, d, h, h0, Or.inr (Or.inr (Or.inr (Or.inr (Or.inr rfl))))⟩
      · have hne : n ≠ 0 := by omega
        simp only [next, popBack, deleteCmd, List.getLast?_singleton, Res.bind_ok, if_neg hne, List.length_singleton, ne_eq, Nat.one_ne_zero,
          not_false_eq_true, if_true] at hn
        obtain ⟨w, hw, hn⟩ := Res.bind_eq_ok.1 hn
        cases hn
        split at hw
        · cases hw
        · cases hw
          exact ⟨n + 1, d ++ [n], h, by omega, Or.inl rfl⟩
  obtain ⟨n, d, h, h0, rfl | rfl | rfl | rfl | rfl | rfl⟩ := inv
  · simp [next, enter]
  · simp [next]
  · simp [next]
  · simp [next]
  · simp [next]
  · have hne : n ≠ 0 := by omega
    simp only [next, popBack, deleteCmd, List.getLast?_singleton, Res.bind_ok, if_neg hne, List.length_singleton, ne_eq, Nat.one_ne_zero,
      not_false_eq_true, if_true]
    by_cases hd : n ∈ d
    · rw [if_pos hd]; exact fun h => by cases h
    · rw [if_neg hd]; exact fun h => by cases h

/-- A number of steps. -/
def steps (eff : Nat → List Op) : Nat → St → Res St
  | 0, s => .ok s
  | n + 1, s =>
    match next eff s with
    | .ok (some s) => steps eff n s
    | .ok none => .ok s
    | .exc e => .exc e
    | .ub => .ub

/-- Command 1 stores 11 when it is deleted, command 11 stores 12 and calls `dispose` and `redo`: all four are deleted once. -/
example : steps (fun p => if p = 1 then [.store 11] else if p = 11 then [.store 12, .dispose, .redo] else []) 100 (start [.store 1, .store 2]) =
    .ok ⟨{ deleted := [2, 1, 11, 12] }, [], [1, 2, 11, 12]⟩ := by decide +kernel

/-- In a manager for two commands: the third `store` deletes 1, whose destructor stores 11, so that 2 goes too. -/
example : steps (fun p => if p = 1 then [.store 11] else []) 40 { m := { maxElements := 2 }, stack := [.acts [.store 1, .store 2, .store 3]] } =
    .ok ⟨{ maxElements := 2, first := [3, 11], deleted := [1, 2] }, [], [1, 2, 3, 11]⟩ := by decide +kernel

end Verif.Command
